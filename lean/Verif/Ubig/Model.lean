import Verif.Bits.Model

/-!
`ubigint`: unsigned big integers.  Models F/bignum/bignum/ubigint.hpp and
S/basic_environment/add_sub_carry.hpp.

A number is its digit array `_data`, least significant digit first: a list of naturals below `2^w`,
where `w` is the width of `base_type` (8 in debug builds, 32 in release builds; here a parameter).
`array_t` is modelled as a list, `data_view_type` as the sublist it shows, so copies made only to
save allocations are not distinguished.  Reading or writing outside a buffer, and loops that would
not end, are the outcome `none`.
-/
namespace ELC.Ubig

/-- F/bignum/bignum/ubigint.hpp:49 `_data`. -/
abbrev Digits := List Nat

/-! ### carries -/

/-- S/basic_environment/add_sub_carry.hpp:36-107 `add_carry(T a,T b,bool&)` on `w`-bit words, the
portable branch: `c=a+is_overflow; if(c) is_overflow=add_carry(c,b,c) else c=b`. -/
def addCarry (w a b : Nat) (c : Bool) : Nat × Bool :=
  let s := (a + c.toNat) % 2 ^ w
  if s ≠ 0 then
    let t := (s + b) % 2 ^ w
    (t, decide (t < s))
  else (b, c)

/-- S/basic_environment/add_sub_carry.hpp:108-122 `add_carry(T a,bool&)`. -/
def addCarry1 (w a : Nat) (c : Bool) : Nat × Bool :=
  let s := (a + c.toNat) % 2 ^ w
  (s, if s ≠ 0 then false else c)

/-- S/basic_environment/add_sub_carry.hpp:155-176 `sub_borrow(T a,T b,bool&)`, portable branch. -/
def subBorrow (w a b : Nat) (c : Bool) : Nat × Bool :=
  let t := (b + c.toNat) % 2 ^ w
  if t ≠ 0 then
    let r := (a + 2 ^ w - t) % 2 ^ w
    (r, decide (r > a))
  else (a, c)

/-- S/basic_environment/add_sub_carry.hpp:177-194 `sub_borrow(T a,bool&)`. -/
def subBorrow1 (w a : Nat) (c : Bool) : Nat × Bool :=
  if c then ((a + 2 ^ w - 1) % 2 ^ w, a == 0) else (a, c)

/-! ### conversion -/

/-- ubigint.hpp:68-74, the loop of the constructor, with `slots` digits of room left. -/
def ofNativeLoop (w : Nat) : Nat → Nat → Option Digits
  | _, 0 => some []
  | 0, _+1 => none
  | s+1, v+1 => (ofNativeLoop w s ((v+1) / 2 ^ w)).map (((v+1) % 2 ^ w) :: ·)

/-- ubigint.hpp:65-78 `ubigint(T value)` for a `t`-bit unsigned type: room for
`base_type_size_of<T>` digits, then cut to the digits used. -/
def ofNative (w t v : Nat) : Option Digits := ofNativeLoop w ((t + w - 1) / w) v

/-- ubigint.hpp:110-122 `convert_to<T>` for a `t`-bit unsigned type: Horner's rule from the most
significant digit, every step reduced to `t` bits. -/
def convertTo (w t : Nat) : Digits → Nat
  | [] => 0
  | x :: l => (convertTo w t l * 2 ^ w % 2 ^ t + x) % 2 ^ t

/-- ubigint.hpp:142-150 `shrink_to_fit` and 157-163 `get_shrinked_data_view_of_data`: drop the zero
digits at the most significant end. -/
def shrink : Digits → Digits
  | [] => []
  | x :: l =>
    match shrink l with
    | [] => if x = 0 then [] else [x]
    | y :: l' => x :: y :: l'

/-! ### comparison -/

/-- ubigint.hpp:209-212, the loop of `compare`: from the most significant digit down. -/
def cmpDigits : Digits → Digits → Ordering
  | [], [] => .eq
  | x :: a, y :: b => (cmpDigits a b).then (compare x y)
  | _, _ => .eq

/-- ubigint.hpp:205-214 `compare`, and 226 `operator<=>`: first the number of digits. -/
def cmp (a b : Digits) : Ordering := (compare a.length b.length).then (cmpDigits a b)

/-- ubigint.hpp:181 `operator==` of two big integers. -/
def eq (a b : Digits) : Bool := a == b

/-- ubigint.hpp:185-201 `operator==(T)` for an unsigned native integer. -/
def eqNative (w : Nat) : Digits → Nat → Bool
  | [], v => v == 0
  | x :: l, v => if v < x then false else eqNative w l ((v - x) / 2 ^ w)

/-- ubigint.hpp:239-246, the loop of `operator<=>(T)`. -/
def cmpNativeLoop (w : Nat) : Digits → Nat → Ordering
  | [], v => if v = 0 then .eq else .lt
  | x :: l, v => if v < x then .gt else cmpNativeLoop w l ((v - x) / 2 ^ w)

/-- ubigint.hpp:229-248 `operator<=>(T)` for a `t`-bit unsigned type: first compares the number of
digits with `base_type_size_of<T>`. -/
def cmpNative (w t : Nat) (l : Digits) (v : Nat) : Ordering :=
  (compare l.length ((t + w - 1) / w)).then (cmpNativeLoop w l v)

/-! ### addition -/

/-- ubigint.hpp:309-318 `add_to_base(base_type*,data_view_type)`: add `b` to the digits at `buf`,
then push the carry on.  `none` when the carry runs out of the buffer. -/
def addInto (w : Nat) : Digits → Digits → Bool → Option Digits
  | buf, [], false => some buf
  | [], [], true => none
  | x :: buf, [], true =>
    let r := addCarry1 w x true
    (addInto w buf [] r.2).map (r.1 :: ·)
  | [], _ :: _, _ => none
  | x :: buf, y :: b, c =>
    let r := addCarry w x y c
    (addInto w buf b r.2).map (r.1 :: ·)

/-- ubigint.hpp:253-267 `get_safety_add_buf_size_diff` (`a` is at least as long as `b`). -/
def safetyDiff (w : Nat) (a b : Digits) : Nat :=
  if a.length ≠ b.length then
    if (a.drop b.length).any (fun d => d != 2 ^ w - 1) then 0 else 1
  else (a.getLastD 0 + b.getLastD 0 + 1) / 2 ^ w

/-- ubigint.hpp:276-291 `add_base`, and 863 `operator+`. -/
def add (w : Nat) (a b : Digits) : Option Digits :=
  let (a, b) := if a.length < b.length then (b, a) else (a, b)
  if b.length = 0 then some a
  else
    let diff := safetyDiff w a b
    (addInto w (a ++ List.replicate diff 0) b false).map
      fun r => if diff ≠ 0 then shrink r else r

/-- ubigint.hpp:271-275 `get_safety_add_buf_size_with_not_compared_buf`. -/
def safetySize (w : Nat) (a b : Digits) : Nat :=
  if a.length < b.length then b.length + safetyDiff w b a else a.length + safetyDiff w a b

/-- ubigint.hpp:292-305 `add_to_base(data_type&,data_view_type)`, and 1020 `operator+=`, for two
different objects. -/
def addAssign (w : Nat) (a b : Digits) : Option Digits :=
  if b.length = 0 then some a
  else if a.length = 0 then some b
  else
    let diff := safetySize w a b - a.length
    (addInto w (a ++ List.replicate diff 0) b false).map
      fun r => if diff ≠ 0 then shrink r else r

/-- ubigint.hpp:292-305 when both operands are the same object (`x+=x`): `a.insert` may move the
storage that `b` points into, so growing is undefined; without growth the digits are read before
they are overwritten. -/
def addAssignSelf (w : Nat) (a : Digits) : Option Digits :=
  if a.length = 0 then some a
  else if safetySize w a a - a.length ≠ 0 then none
  else addInto w a a false

/-- ubigint.hpp:341-346, the second loop of `add_to_base(data_type&,T)`, with `room` digits
allocated. -/
def addNativeTail (w : Nat) : Nat → Nat → Bool → Option Digits
  | _, 0, _ => some []
  | 0, _+1, _ => none
  | k+1, t+1, c =>
    let r := addCarry1 w ((t+1) % 2 ^ w) c
    (addNativeTail w k ((t+1) >>> w) r.2).map (r.1 :: ·)

/-- ubigint.hpp:330-348, both loops of `add_to_base(data_type&,T)` in `ct`-bit arithmetic. -/
def addNativeLoop (w ct : Nat) : Digits → Nat → Bool → Option Digits
  | [], tmp, c => addNativeTail w ((ct + w - 1) / w) tmp c
  | x :: l, tmp, c =>
    if tmp = 0 then some (x :: l)
    else
      let r := addCarry ct x tmp c
      (addNativeLoop w ct l (r.1 >>> w) r.2).map (r.1 % 2 ^ w :: ·)

/-- ubigint.hpp:323-349 `add_to_base(data_type&,T)`, and 1025 `operator+=(T)`, for a `t`-bit type:
`calc_t` is `T` when that is wider than `calc_type` (`2w` bits). -/
def addNative (w t : Nat) (l : Digits) (v : Nat) : Option Digits :=
  addNativeLoop w (if t > 2 * w then t else 2 * w) l v false

/-- ubigint.hpp:352-365 `offset_add_to_base(data_type&,data_view_type,size_t)`. -/
def offsetAdd (w : Nat) (buf b : Digits) (offset : Nat) : Option Digits :=
  let buf := if buf.length ≤ offset + b.length
    then buf ++ List.replicate (offset + b.length + 1 - buf.length) 0 else buf
  (addInto w (buf.drop offset) b false).map fun r => shrink (buf.take offset ++ r)

/-! ### subtraction -/

/-- ubigint.hpp:386-396 `sub_with_base(base_type*,data_view_type)`. -/
def subFrom (w : Nat) : Digits → Digits → Bool → Option Digits
  | buf, [], false => some buf
  | [], [], true => none
  | x :: buf, [], true =>
    let r := subBorrow1 w x true
    (subFrom w buf [] r.2).map (r.1 :: ·)
  | [], _ :: _, _ => none
  | x :: buf, y :: b, c =>
    let r := subBorrow w x y c
    (subFrom w buf b r.2).map (r.1 :: ·)

/-- ubigint.hpp:377-385 `sub_base` and 400-403 `sub_with_base(data_type&,…)`. -/
def subBase (w : Nat) (a b : Digits) : Option Digits := (subFrom w a b false).map shrink

/-- ubigint.hpp:867-873 `operator-` and 1038-1047 `operator-=`. -/
def sub (w : Nat) (a b : Digits) : Option Digits :=
  if cmp a b = .lt then some [] else subBase w a b

/-! ### increment and decrement -/

/-- ubigint.hpp:418-429 `add_one_to_base`. -/
def addOne (w : Nat) : Digits → Digits
  | [] => [1]
  | x :: l =>
    let x' := (x + 1) % 2 ^ w
    if x' ≠ 0 then x' :: l else x' :: addOne w l

/-- ubigint.hpp:437-441: decrement the digit under the iterator, dropping it when it becomes zero and
is the most significant one. -/
def decDigit (x : Nat) (l : Digits) : Digits :=
  if x - 1 = 0 ∧ l = [] then l else (x - 1) :: l

/-- ubigint.hpp:435-447 `sub_one_from_base`.  When the first digit is zero it is set to the maximum,
but the iterator is not advanced, so the next round decrements that same digit and returns. -/
def subOne (w : Nat) : Digits → Digits
  | [] => []
  | x :: l => if x ≠ 0 then decDigit x l else decDigit (2 ^ w - 1) l

/-! ### multiplication -/

/-- ubigint.hpp:489-498 `muti_with_base_no_optimisation`, `num` being the running carry in
`calc_type`. -/
def mulDigit (w : Nat) (b : Nat) : Digits → Nat → Digits
  | [], num => [num % 2 ^ w]
  | x :: a, num =>
    let n := (num + x * b) % 2 ^ (2 * w)
    (n % 2 ^ w) :: mulDigit w b a (n / 2 ^ w)

/-- ubigint.hpp:455-467 `shrink_of_end_zeros`: how many least significant digits are zero. -/
def endZeros : Digits → Nat
  | [] => 0
  | x :: l => if x = 0 then endZeros l + 1 else 0

/-- ubigint.hpp:499-510 `muti_with_base(base_type*,data_view_type,base_type)`. -/
def mulDigitBuf (w : Nat) (a : Digits) (b : Nat) : Digits :=
  if b = 0 then List.replicate (a.length + 1) 0
  else List.replicate (endZeros a) 0 ++ mulDigit w b (a.drop (endZeros a)) 0

/-- ubigint.hpp:518-525, the loop of `muti_with_base(base_type*,data_view_type,data_view_type)`. -/
def mulRows (w : Nat) (a : Digits) : Digits → Digits → Option Digits
  | [], buf => some buf
  | y :: b, buf =>
    (if y ≠ 0 then addInto w buf (shrink (mulDigit w y a 0)) false else some buf).bind fun
    | [] => none
    | x :: t => (mulRows w a b t).map (x :: ·)

/-- ubigint.hpp:511-533 `muti_base(data_view_type,data_view_type)`. -/
def mulBase (w : Nat) (a b : Digits) : Option Digits :=
  let (a, b) := if a.length < b.length then (b, a) else (a, b)
  let zeros := endZeros a + endZeros b
  (mulRows w (a.drop (endZeros a)) (b.drop (endZeros b))
    (List.replicate (a.length + b.length - zeros) 0)).map
      fun r => shrink (List.replicate zeros 0 ++ r)

/-- ubigint.hpp:540-543 the split point of `fast_muti_base`. -/
def splitPoint (m n : Nat) : Nat := max (min ((m + 1) / 2) (n - 1)) (min (m - 1) ((n + 1) / 2))

/-- ubigint.hpp:536 `fast_muti_base_threshold`. -/
def mulThreshold : Nat := 64

/-- ubigint.hpp:535-559 `fast_muti_base` (Karatsuba).  The recursion is on `fuel`; `Props` shows that
the number of digits of both operands is enough. -/
def fastMulAux (w : Nat) : Nat → Digits → Digits → Option Digits
  | 0, _, _ => none
  | fuel+1, a, b =>
    if min a.length b.length < mulThreshold then mulBase w a b
    else do
      let sp := splitPoint a.length b.length
      let aLow := shrink (a.take sp)
      let aHigh := a.drop sp
      let bLow := shrink (b.take sp)
      let bHigh := b.drop sp
      let high ← fastMulAux w fuel aHigh bHigh
      let low ← fastMulAux w fuel aLow bLow
      let aSum ← add w aHigh aLow
      let bSum ← add w bHigh bLow
      let middle ← fastMulAux w fuel aSum bSum
      let hl ← add w high low
      let middle ← sub w middle hl
      let r ← offsetAdd w low high (sp * 2)
      offsetAdd w r middle sp

/-- ubigint.hpp:875-879 `operator*`, via `fast_muti_base`. -/
def mul (w : Nat) (a b : Digits) : Option Digits := fastMulAux w (a.length + b.length + 1) a b

/-! ### division -/

/-- ubigint.hpp:580-617 `no_mod_optimisation_of_div`: the number of low digits dropped from both
operands.  `none` for a zero divisor or a dividend shorter than the divisor (the sizes underflow). -/
def noModSize : Nat → Digits → Digits → Option Nat
  | 0, _, _ => none
  | fuel+1, a, b =>
    let zeros := endZeros b
    let a := a.drop zeros
    let b := b.drop zeros
    if b = [] ∨ a.length < b.length then none
    else if (b.length - 1) * 2 > a.length then
      let ansLen := a.length - b.length + 2
      let shr := b.length - ansLen
      (noModSize fuel (a.drop shr) (b.drop shr)).map (fun n => zeros + shr + n)
    else some zeros

/-- ubigint.hpp:580-598 as a function of the operands; one level of recursion per dropped digit at
most. -/
def noMod (a b : Digits) : Option Nat := noModSize (b.length + 1) a b

/-- ubigint.hpp:632-648, the binary search of `div_with_base_no_optimisation`.  Result: the last
workable digit.  A `test-1` that would wrap below zero is `none`. -/
def divSearch (w : Nat) (tryto b : Digits) : Nat → Nat → Nat → Nat → Option Nat
  | 0, _, _, _ => none
  | fuel+1, left, right, last =>
    if left ≤ right then
      let test := (left + right) / 2
      let c := cmp tryto (shrink (mulDigitBuf w b (test % 2 ^ w)))
      let last := if c = .lt then last else test % 2 ^ w
      match c with
      | .gt =>
        let left := test + 1
        if left % 2 ^ w = 0 then some last else divSearch w tryto b fuel left right last
      | .lt => if test = 0 then none else divSearch w tryto b fuel left (test - 1) last
      | .eq => some last
    else some last

/-- ubigint.hpp:619-654 `div_with_base_no_optimisation(buf,a,b)`: one quotient digit of the window
`win` of `b.size()+1` digits, and the window after subtracting digit times `b`. -/
def divStep (w : Nat) (win b : Digits) : Option (Nat × Digits) :=
  let dividend := win.getD b.length 0 * 2 ^ w + win.getD (b.length - 1) 0
  let divisor := b.getLastD 0
  let left := dividend / (divisor + 1)
  let right := min (dividend / divisor) (2 ^ w - 1)
  if right = 0 then some (0, win)
  else do
    let d ← divSearch w (shrink win) b (right + 2 - left) left right 0
    if d = 0 then some (0, win)
    else
      let win' ← subFrom w win (shrink (mulDigitBuf w b d)) false
      some (d, win')

/-- ubigint.hpp:662-676 and 700-707, the loop of `div_with_base_no_optimisation_impl` and
`mod_with_base_impl`: windows from the most significant end down.  The result is the quotient digits
and the digits left in `a`. -/
def divLoop (w : Nat) (b : Digits) : Digits → Option (Digits × Digits)
  | [] => some ([], [])
  | x :: a =>
    if a.length < b.length then some ([], x :: a)
    else do
      let (q, a) ← divLoop w b a
      let (d, win) ← divStep w ((x :: a).take (b.length + 1)) b
      some (d :: q, win ++ (x :: a).drop (b.length + 1))

/-- ubigint.hpp:677-680 and 688-694 `div_base_no_optimisation`: push a zero digit and divide; quotient
and what is left of the dividend.  `none` for operands the pointer arithmetic does not allow. -/
def divNoOpt (w : Nat) (a b : Digits) : Option (Digits × Digits) :=
  if b = [] ∨ a.length < b.length then none
  else (divLoop w b (a ++ [0])).map fun r => (shrink r.1, r.2)

/-- ubigint.hpp:708-721 `mod_with_base`, `mod_base`. -/
def modBase (w : Nat) (a b : Digits) : Option Digits := (divNoOpt w a b).map fun r => shrink r.2

/-- ubigint.hpp:731-749 `divmod_with_base`, `divmod_base`. -/
def divmodBase (w : Nat) (a b : Digits) : Option (Digits × Digits) := do
  let opt ← noMod a b
  if opt = 0 then (divNoOpt w a b).map fun r => (r.1, shrink r.2)
  else
    let (q, _) ← divNoOpt w (a.drop opt) (b.drop opt)
    let p ← mul w q b
    let r ← subBase w a p
    some (q, r)

/-- ubigint.hpp:751 `fast_div_base_threshold`. -/
def divThreshold : Nat := 32

/-- ubigint.hpp:753-765 `fast_div_regularisation`: scaled dividend, scaled divisor and the factor.
`none`: a one-digit divisor (reads before the storage), or two maximal leading digits (the factor is
a division by zero in 32-bit digits and zero in 8-bit digits). -/
def regularise (w : Nat) (a b : Digits) : Option (Digits × Digits × Digits) :=
  if b.length < 2 then none
  else
    let first2 := b.getLastD 0 * 2 ^ w + b.getD (b.length - 2) 0 + 1
    if first2 ≥ 2 ^ (2 * w) then none
    else do
      let m ← ofNative w (2 * w) ((2 ^ (2 * w) - 1) / first2)
      let a' ← mul w a m
      let b' ← mul w b m
      some (a', b', m)

/-- ubigint.hpp:817-820: `while(compare(remain,a)>0){sub_with_base(remain,b);sub_one_from_base(ans);}`
-/
def fixup (w : Nat) (a b : Digits) : Nat → Digits → Digits → Option (Digits × Digits)
  | 0, _, _ => none
  | fuel+1, remain, ans =>
    if cmp remain a = .gt then do
      let remain ← subBase w remain b
      fixup w a b fuel remain (subOne w ans)
    else some (remain, ans)

/-- The value of a digit array; used here only as the bound on the number of `fixup` rounds. -/
def fuelOf (w : Nat) : Digits → Nat
  | [] => 0
  | x :: l => x + 2 ^ w * fuelOf w l

/-- ubigint.hpp:797-836 `fast_divmod_base_impl`.  `cut n` stands for `to_size_t(n/magic_number::e)`,
a floating point computation; any function is allowed. -/
def fastDivmodAux (w : Nat) (cut : Nat → Nat) : Nat → Digits → Digits → Option (Digits × Digits)
  | 0, _, _ => none
  | fuel+1, a, b =>
    if cmp a b = .lt then some ([], a)
    else if a.length ≤ divThreshold then divmodBase w a b
    else
      let base := (b.length + 1) / 2
      if a.length ≤ base * 3 then do
        let base := cut b.length
        let aHigh := a.drop base
        let bHigh := b.drop base
        let n ← noMod aHigh bHigh
        let (ans, _) ← fastDivmodAux w cut fuel (aHigh.drop n) (bHigh.drop n)
        let remain ← mul w ans b
        let (remain, ans) ← fixup w a b (fuelOf w remain + 1) remain ans
        let remain ← subBase w a remain
        some (ans, remain)
      else do
        let base := if a.length > base * 4 then a.length / 2 else base
        let (ans, remain) ← fastDivmodAux w cut fuel (a.drop base) b
        let ans := List.replicate base 0 ++ ans
        let (q, remain) ← fastDivmodAux w cut fuel (a.take base ++ remain) b
        let ans ← addAssign w ans q
        some (ans, remain)

/-- ubigint.hpp:797 with enough recursion depth. -/
def fastDivmodImpl (w : Nat) (cut : Nat → Nat) (a b : Digits) : Option (Digits × Digits) :=
  fastDivmodAux w cut (2 * a.length + 2) a b

/-- ubigint.hpp:776-781 `fast_div_base`. -/
def fastDiv (w : Nat) (cut : Nat → Nat) (a b : Digits) : Option Digits := do
  let n ← noMod a b
  let a := a.drop n
  let b := b.drop n
  if a.length ≤ divThreshold then (divNoOpt w a b).map (·.1)
  else
    let (a', b', _) ← regularise w a b
    let (q, _) ← fastDivmodImpl w cut a' b'
    some q

/-- ubigint.hpp:881-887 `operator/`. -/
def div (w : Nat) (cut : Nat → Nat) (a b : Digits) : Option Digits :=
  if b.length = 0 then some []
  else if a.length < b.length then some []
  else fastDiv w cut a b

/-- ubigint.hpp:766-772 `fast_divmod_base`. -/
def fastDivmod (w : Nat) (cut : Nat → Nat) (a b : Digits) : Option (Digits × Digits) :=
  if a.length ≤ divThreshold then divmodBase w a b
  else do
    let (a', b', m) ← regularise w a b
    let (q, r) ← fastDivmodImpl w cut a' b'
    let r ← div w cut r m
    some (q, r)

/-- ubigint.hpp:782-795 `fast_mod_with_base`, `fast_mod_base`. -/
def fastMod (w : Nat) (cut : Nat → Nat) (a b : Digits) : Option Digits :=
  if a.length ≤ divThreshold then modBase w a b
  else do
    let (a', b', m) ← regularise w a b
    let (_, r) ← fastDivmodImpl w cut a' b'
    div w cut r m

/-- ubigint.hpp:889-895 `operator%` and 1061-1072 `operator%=`. -/
def mod (w : Nat) (cut : Nat → Nat) (a b : Digits) : Option Digits :=
  if b.length = 0 then some []
  else if a.length < b.length then some a
  else fastMod w cut a b

/-- ubigint.hpp:1060-1072 `operator%=` when both operands are the same object (`x%=x`).  For up to
`fast_div_base_threshold` digits line 710 appends a digit to the array, which may move the storage
that `b` points into: undefined.  Above the threshold lines 784-787 work on scaled copies. -/
def modAssignSelf (w : Nat) (cut : Nat → Nat) (a : Digits) : Option Digits :=
  if a.length = 0 then some []
  else if a.length ≤ divThreshold then none
  else fastMod w cut a a

/-- ubigint.hpp:897-913 `divmod`. -/
def divmod (w : Nat) (cut : Nat → Nat) (a b : Digits) : Option (Digits × Digits) :=
  if b.length = 0 then some ([], [])
  else if a.length < b.length then some ([], a)
  else fastDivmod w cut a b

/-! ### shifts -/

/-- ubigint.hpp:953-960 and 1092-1098, the loop of `<<` and `<<=`. -/
def shlLoop (w off : Nat) : Digits → Nat → Digits
  | [], carry => if carry ≠ 0 then [carry] else []
  | x :: l, carry => (((x <<< off) % 2 ^ w) ||| carry) :: shlLoop w off l (x >>> (w - off))

/-- ubigint.hpp:935-967 `operator<<` and 1074-1103 `operator<<=` for an unsigned count. -/
def shl (w : Nat) (a : Digits) (n : Nat) : Digits :=
  if a = [] then []
  else
    let q := n / w
    let n := if q ≠ 0 then n % w else n
    List.replicate q 0 ++ (if n ≠ 0 then shlLoop w n a 0 else a)

/-- ubigint.hpp:1007-1012 and 1124-1129, the loop of `>>` and `>>=`, from the most significant digit
down; returns the digits and the carry for the digit below. -/
def shrLoop (w off : Nat) : Digits → Digits × Nat
  | [] => ([], 0)
  | x :: l =>
    let r := shrLoop w off l
    (((x >>> off) ||| r.2) :: r.1, (x <<< (w - off)) % 2 ^ w)

/-- ubigint.hpp:1106-1135 `operator>>=` for an unsigned count. -/
def shrAssign (w : Nat) (a : Digits) (n : Nat) : Digits :=
  if a = [] then []
  else
    let q := n / w
    if q ≠ 0 ∧ q ≥ a.length then []
    else
      let a := a.drop q
      let n := if q ≠ 0 then n % w else n
      if n ≠ 0 then shrink (shrLoop w n a).1 else a

/-- ubigint.hpp:988-1018 `operator>>` for an unsigned count.  With a whole-digit part `q ≠ 0` and a
remaining bit count the loop goes on below digit `q` and writes `aret[i-newsize_diff]` with a wrapped
index: `none`. -/
def shr (w : Nat) (a : Digits) (n : Nat) : Option Digits :=
  if a = [] then some []
  else
    let q := n / w
    if q ≥ a.length then some []
    else
      let n := if q ≠ 0 then n % w else n
      if n ≠ 0 then
        if q ≠ 0 then none else some (shrink (shrLoop w n a).1)
      else some (a.drop q)

/-- ubigint.hpp:916-932 `left_shift_in_base_type`. -/
def shlDigits (a : Digits) (n : Nat) : Digits := if a = [] then [] else List.replicate n 0 ++ a

/-- ubigint.hpp:970-985 `right_shift_in_base_type`. -/
def shrDigits (a : Digits) (n : Nat) : Digits :=
  if a = [] then [] else if n ≥ a.length then [] else a.drop n

/-! ### bit queries (`k` is the level of `base_type`, `w = 8·2^k`) -/

/-- ubigint.hpp:1193-1207 `countr_zero`. -/
def countrZero (k : Nat) : Digits → Nat
  | [] => 0
  | x :: l => if x = 0 then Bits.bitsOf k + countrZero k l else Bits.countrZero k x

/-- ubigint.hpp:1209-1214 `bit_at`: `_data[index]&(1u<<mod)`. -/
def bitAt (w : Nat) (a : Digits) (n : Nat) : Bool :=
  if n / w ≥ a.length then false else (a.getD (n / w) 0 &&& (1 <<< (n % w))) != 0

/-- ubigint.hpp:1216-1220 `get_bitnum`. -/
def getBitnum (k : Nat) (a : Digits) : Nat :=
  if a = [] then 0 else a.length * Bits.bitsOf k - Bits.countlZero k (a.getLastD 0)

/-- ubigint.hpp:1246-1251 `is_odd`. -/
def isOdd : Digits → Bool
  | [] => false
  | x :: _ => x % 2 == 1

end ELC.Ubig
