/-
Character set conversion.  Models S/char_set/convert.hpp lines 34-447.
Code units and code points are natural numbers; `char8_t(x)` is `x % 2^8`, `char16_t(x)` is
`x % 2^16`, a store to a `char32_t` is `% 2^32`.
A return value `npos` is `none`.
-/
namespace ELC.Utf

/-- Subtraction of a constant followed by the store into a `char32_t`. -/
def sub32 (a b : Nat) : Nat := (a + (2 ^ 32 - b % 2 ^ 32)) % 2 ^ 32

/-- S/char_set/convert.hpp:42-97 `decode_utf8`: `code1` is `*in`, `rest` the bytes after it inside
`in_size_max`.  Result: the code point stored to `*out` and the returned size. -/
def decodeUtf8 (code1 : Nat) (rest : List Nat) : Option (Nat × Nat) :=
  if code1 < 0x80 then some (code1, 1)
  else if code1 < 0xC2 then none
  else if code1 < 0xE0 then
    match rest with
    | code2 :: _ =>
      if code2 &&& 0xC0 ≠ 0x80 then none
      else some (sub32 ((code1 <<< 6) + code2) 0x3080, 2)
    | _ => none
  else if code1 < 0xF0 then
    match rest with
    | code2 :: code3 :: _ =>
      if code2 &&& 0xC0 ≠ 0x80 then none
      else if code1 = 0xE0 ∧ code2 < 0xA0 then none
      else if code3 &&& 0xC0 ≠ 0x80 then none
      else some (sub32 ((code1 <<< 12) + (code2 <<< 6) + code3) 0xE2080, 3)
    | _ => none
  else if code1 < 0xF5 then
    match rest with
    | code2 :: code3 :: code4 :: _ =>
      if code2 &&& 0xC0 ≠ 0x80 then none
      else if code1 = 0xF0 ∧ code2 < 0x90 then none
      else if code1 = 0xF4 ∧ code2 ≥ 0x90 then none
      else if code3 &&& 0xC0 ≠ 0x80 then none
      else if code4 &&& 0xC0 ≠ 0x80 then none
      else some (sub32 ((code1 <<< 18) + (code2 <<< 12) + (code3 <<< 6) + code4) 0x3C82080, 4)
    | _ => none
  else none

/-- S/char_set/convert.hpp:98-111 `get_decode_utf8_size`. -/
def getDecodeUtf8Size (code1 : Nat) : Option Nat :=
  if code1 < 0x80 then some 1
  else if code1 < 0xC2 then none
  else if code1 < 0xE0 then some 2
  else if code1 < 0xF0 then some 3
  else if code1 < 0xF5 then some 4
  else none

/-- S/char_set/convert.hpp:112-126 `decode_utf16`. -/
def decodeUtf16 (code1 : Nat) (rest : List Nat) : Option (Nat × Nat) :=
  if code1 ≥ 0xD800 ∧ code1 < 0xDC00 then
    match rest with
    | code2 :: _ =>
      if code2 ≥ 0xDC00 ∧ code2 < 0xE000 then
        some (sub32 ((code1 <<< 10) + code2) 0x35FDC00, 2)
      else none
    | _ => none
  else some (code1, 1)

/-- What an encoder does: the units it writes from `*out` on, and the size it returns. -/
structure Enc where
  units : List Nat
  size : Nat
deriving DecidableEq, Repr

/-- S/char_set/convert.hpp:133-157 `encode_utf8`. -/
def encodeUtf8 (c : Nat) : Option Enc :=
  if c < 0x80 then some ⟨[c % 2 ^ 8], 1⟩
  else if c < 0x800 then
    some ⟨[((c >>> 6) + 0xC0) % 2 ^ 8, ((c &&& 0x3F) + 0x80) % 2 ^ 8], 2⟩
  else if c < 0x10000 then
    some ⟨[((c >>> 12) + 0xE0) % 2 ^ 8, (((c >>> 6) &&& 0x3F) + 0x80) % 2 ^ 8,
      ((c &&& 0x3F) + 0x80) % 2 ^ 8], 3⟩
  else if c < 0x110000 then
    some ⟨[((c >>> 18) + 0xF0) % 2 ^ 8, (((c >>> 12) &&& 0x3F) + 0x80) % 2 ^ 8,
      (((c >>> 6) &&& 0x3F) + 0x80) % 2 ^ 8, ((c &&& 0x3F) + 0x80) % 2 ^ 8], 4⟩
  else none

/-- S/char_set/convert.hpp:158-169 `get_encode_utf8_size`. -/
def getEncodeUtf8Size (c : Nat) : Option Nat :=
  if c < 0x80 then some 1
  else if c < 0x800 then some 2
  else if c < 0x10000 then some 3
  else if c < 0x110000 then some 4
  else none

/-- S/char_set/convert.hpp:170-181 `encode_utf16`. -/
def encodeUtf16 (c : Nat) : Option Enc :=
  if c < 0x10000 then some ⟨[c % 2 ^ 16], 1⟩
  else if c < 0x110000 then
    some ⟨[((c >>> 10) + 0xD7C0) % 2 ^ 16, ((c &&& 0x3FF) + 0xDC00) % 2 ^ 16], 2⟩
  else none

/-- S/char_set/convert.hpp:182-189 `get_encode_utf16_size`. -/
def getEncodeUtf16Size (c : Nat) : Option Nat :=
  if c < 0x10000 then some 1
  else if c < 0x110000 then some 2
  else none

/-- S/char_set/convert.hpp:191-202 `code_convert_result`: the success flag, the number of input
units in `processed_input()` and the units of `processed_output()`. -/
structure Result where
  success : Bool
  processed : Nat
  output : List Nat
deriving DecidableEq, Repr

/-- `out += size` after an encoder wrote `e.units`: exactly `size` more units count as written.
(If the returned size exceeded the units written the output would come out too short here;
`encode_size_eq` shows that the two agree.) -/
def put (out : List Nat) (e : Enc) : List Nat := (out ++ e.units).take (out.length + e.size)

theorem decodeUtf8_pos {c : Nat} {r : List Nat} {cp n : Nat}
    (h : decodeUtf8 c r = some (cp, n)) : 0 < n := by
  unfold decodeUtf8 at h
  repeat' split at h
  all_goals simp at h <;> omega

theorem decodeUtf16_pos {c : Nat} {r : List Nat} {cp n : Nat}
    (h : decodeUtf16 c r = some (cp, n)) : 0 < n := by
  unfold decodeUtf16 at h
  repeat' split at h
  all_goals simp at h <;> omega

/-- S/char_set/convert.hpp:262-281 `utf8_to_utf32`; `done` and `out` are the progress so far. -/
def utf8ToUtf32Loop (done : Nat) (out : List Nat) (inp : List Nat) : Result :=
  match inp with
  | [] => ⟨true, done, out⟩
  | c :: r =>
    match _h : decodeUtf8 c r with
    | none => ⟨false, done, out⟩
    | some (code, n) => utf8ToUtf32Loop (done + n) (out ++ [code]) ((c :: r).drop n)
termination_by inp.length
decreasing_by
  have := decodeUtf8_pos _h
  simp only [List.length_drop, List.length_cons]; omega

/-- S/char_set/convert.hpp:262-281 `utf8_to_utf32`. -/
def utf8ToUtf32 (inp : List Nat) : Result := utf8ToUtf32Loop 0 [] inp

/-- S/char_set/convert.hpp:221-243 `utf8_to_utf16`. -/
def utf8ToUtf16Loop (done : Nat) (out : List Nat) (inp : List Nat) : Result :=
  match inp with
  | [] => ⟨true, done, out⟩
  | c :: r =>
    match _h : decodeUtf8 c r with
    | none => ⟨false, done, out⟩
    | some (code, n) =>
      match encodeUtf16 code with
      | none => ⟨false, done, out⟩
      | some e => utf8ToUtf16Loop (done + n) (put out e) ((c :: r).drop n)
termination_by inp.length
decreasing_by
  have := decodeUtf8_pos _h
  simp only [List.length_drop, List.length_cons]; omega

/-- S/char_set/convert.hpp:221-243 `utf8_to_utf16`. -/
def utf8ToUtf16 (inp : List Nat) : Result := utf8ToUtf16Loop 0 [] inp

/-- S/char_set/convert.hpp:304-326 `utf16_to_utf8`. -/
def utf16ToUtf8Loop (done : Nat) (out : List Nat) (inp : List Nat) : Result :=
  match inp with
  | [] => ⟨true, done, out⟩
  | c :: r =>
    match _h : decodeUtf16 c r with
    | none => ⟨false, done, out⟩
    | some (code, n) =>
      match encodeUtf8 code with
      | none => ⟨false, done, out⟩
      | some e => utf16ToUtf8Loop (done + n) (put out e) ((c :: r).drop n)
termination_by inp.length
decreasing_by
  have := decodeUtf16_pos _h
  simp only [List.length_drop, List.length_cons]; omega

/-- S/char_set/convert.hpp:304-326 `utf16_to_utf8`. -/
def utf16ToUtf8 (inp : List Nat) : Result := utf16ToUtf8Loop 0 [] inp

/-- S/char_set/convert.hpp:346-363 `utf16_to_utf32`. -/
def utf16ToUtf32Loop (done : Nat) (out : List Nat) (inp : List Nat) : Result :=
  match inp with
  | [] => ⟨true, done, out⟩
  | c :: r =>
    match _h : decodeUtf16 c r with
    | none => ⟨false, done, out⟩
    | some (code, n) => utf16ToUtf32Loop (done + n) (out ++ [code]) ((c :: r).drop n)
termination_by inp.length
decreasing_by
  have := decodeUtf16_pos _h
  simp only [List.length_drop, List.length_cons]; omega

/-- S/char_set/convert.hpp:346-363 `utf16_to_utf32`. -/
def utf16ToUtf32 (inp : List Nat) : Result := utf16ToUtf32Loop 0 [] inp

/-- S/char_set/convert.hpp:382-398 `utf32_to_utf8`. -/
def utf32ToUtf8Loop (done : Nat) (out : List Nat) : List Nat → Result
  | [] => ⟨true, done, out⟩
  | c :: r =>
    match encodeUtf8 c with
    | none => ⟨false, done, out⟩
    | some e => utf32ToUtf8Loop (done + 1) (put out e) r

/-- S/char_set/convert.hpp:382-398 `utf32_to_utf8`. -/
def utf32ToUtf8 (inp : List Nat) : Result := utf32ToUtf8Loop 0 [] inp

/-- S/char_set/convert.hpp:417-433 `utf32_to_utf16`. -/
def utf32ToUtf16Loop (done : Nat) (out : List Nat) : List Nat → Result
  | [] => ⟨true, done, out⟩
  | c :: r =>
    match encodeUtf16 c with
    | none => ⟨false, done, out⟩
    | some e => utf32ToUtf16Loop (done + 1) (put out e) r

/-- S/char_set/convert.hpp:417-433 `utf32_to_utf16`. -/
def utf32ToUtf16 (inp : List Nat) : Result := utf32ToUtf16Loop 0 [] inp

/-- Outcome of a size prediction. `noReturn`: control leaves a value-returning function
without a `return` (undefined behaviour). `overrun`: the input pointer is moved past `end`
(the loop `while(in<end)` then stops; the pointer arithmetic itself is undefined). -/
inductive SizeResult
  | size (n : Nat)
  | npos
  | noReturn
  | overrun
deriving DecidableEq, Repr

/-- S/char_set/convert.hpp:203-217 `get_utf8_to_utf16_size`.  Falls off the end after the loop. -/
def getUtf8ToUtf16SizeLoop (inp : List Nat) : SizeResult :=
  match inp with
  | [] => .noReturn
  | c :: r =>
    match _h : decodeUtf8 c r with
    | none => .npos
    | some (code, n) =>
      match getEncodeUtf16Size code with
      | none => .npos
      | some _ => getUtf8ToUtf16SizeLoop ((c :: r).drop n)
termination_by inp.length
decreasing_by
  have := decodeUtf8_pos _h
  simp only [List.length_drop, List.length_cons]; omega

/-- S/char_set/convert.hpp:247-258 `get_utf8_to_utf32_size`. -/
def getUtf8ToUtf32SizeLoop (acc : Nat) (inp : List Nat) : SizeResult :=
  match inp with
  | [] => .size acc
  | c :: r =>
    match getDecodeUtf8Size c with
    | none => .npos
    | some n =>
      if n > r.length + 1 then .overrun
      else getUtf8ToUtf32SizeLoop (acc + 1) (r.drop (n - 1))
termination_by inp.length
decreasing_by simp only [List.length_drop, List.length_cons]; omega

/-- S/char_set/convert.hpp:285-300 `get_utf16_to_utf8_size`. -/
def getUtf16ToUtf8SizeLoop (acc : Nat) (inp : List Nat) : SizeResult :=
  match inp with
  | [] => .size acc
  | c :: r =>
    match _h : decodeUtf16 c r with
    | none => .npos
    | some (code, n) =>
      match getEncodeUtf8Size code with
      | none => .npos
      | some tmp => getUtf16ToUtf8SizeLoop (acc + tmp) ((c :: r).drop n)
termination_by inp.length
decreasing_by
  have := decodeUtf16_pos _h
  simp only [List.length_drop, List.length_cons]; omega

/-- S/char_set/convert.hpp:330-342 `get_utf16_to_utf32_size`. -/
def getUtf16ToUtf32SizeLoop (acc : Nat) (inp : List Nat) : SizeResult :=
  match inp with
  | [] => .size acc
  | c :: r =>
    match _h : decodeUtf16 c r with
    | none => .npos
    | some (_, n) => getUtf16ToUtf32SizeLoop (acc + 1) ((c :: r).drop n)
termination_by inp.length
decreasing_by
  have := decodeUtf16_pos _h
  simp only [List.length_drop, List.length_cons]; omega

/-- S/char_set/convert.hpp:367-378 `get_utf32_to_utf8_size`. -/
def getUtf32ToUtf8SizeLoop (acc : Nat) : List Nat → SizeResult
  | [] => .size acc
  | c :: r =>
    match getEncodeUtf8Size c with
    | none => .npos
    | some tmp => getUtf32ToUtf8SizeLoop (acc + tmp) r

/-- S/char_set/convert.hpp:402-413 `get_utf32_to_utf16_size`. -/
def getUtf32ToUtf16SizeLoop (acc : Nat) : List Nat → SizeResult
  | [] => .size acc
  | c :: r =>
    match getEncodeUtf16Size c with
    | none => .npos
    | some tmp => getUtf32ToUtf16SizeLoop (acc + tmp) r

end ELC.Utf
