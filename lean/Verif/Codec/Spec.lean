import Verif.Codec.Model
import Verif.Utf.Spec
/-! What is asked of conversions. -/
namespace ELC.Codec.Spec
open ELC.Codec

/-- What ISO C asks of a locale: a complete sequence is the one `c32rtomb` writes, its beginnings are beginnings, it has at most
`MB_LEN_MAX` bytes, and a zero byte is the character 0 and in no other sequence. -/
structure _root_.ELC.Codec.Locale.Ok (L : Locale) : Prop where
  enc_status : ∀ c bs, L.enc c = some bs ↔ L.status bs = .char c
  begins : ∀ c bs n, L.enc c = some bs → n < bs.length → L.status (bs.take n) = .more
  short : ∀ c bs, L.enc c = some bs → bs.length ≤ 16
  zero : L.enc 0 = some [0]
  zeros : ∀ bs, bs ≠ [] → L.status (bs ++ [0]) ≠ .more ∧ ∀ c, L.status (bs ++ [0]) ≠ .char c
  begin_short : ∀ bs, L.status bs = .more → bs.length < 16

/-- `bytes` is the text `t` in this locale. -/
def Written (L : Locale) (t bytes : List Nat) : Prop := ∃ parts : List (List Nat), t.map L.enc = parts.map some ∧ bytes = parts.flatten

/-- `bytes` is the beginning of a character and not a character. -/
def Cut (L : Locale) (bytes : List Nat) : Prop := bytes ≠ [] ∧ L.status bytes = .more

/-- `bytes` begins with something that is neither a character nor the beginning of one. -/
def Malformed (L : Locale) (bytes : List Nat) : Prop :=
  ∃ n, 0 < n ∧ n ≤ bytes.length ∧ L.status (bytes.take n) = .bad ∧ ∀ k < n, L.status (bytes.take k) = .more

/-- The bytes of a C string: a zero is behind them, and whatever follows. -/
def Terminated (after : Mem) : Prop := after 0 = some 0

/-- The conversion ends, and like this. -/
def Ends (L : Locale) (a : List Nat) (after : Mem) (o : Out (List Nat)) : Prop :=
  ∃ fuel, ∀ n, fuel ≤ n → toCharTStr L a after n = some o

/-- The conversion never ends. -/
def Never (L : Locale) (a : List Nat) (after : Mem) : Prop := ∀ fuel, toCharTStr L a after fuel = none

/-- Nothing behind the bytes can be read. -/
def nothing : Mem := fun _ => none

/-- UTF-8, as a locale: scalar values are written as RFC 3629 says. -/
def utf8Status (bs : List Nat) : Status :=
  match bs with
  | [] => .more
  | [a] => if a < 0x80 then .char a else if 0xC2 ≤ a ∧ a ≤ 0xF4 then .more else .bad
  | [a, b] =>
    if 0xC2 ≤ a ∧ a ≤ 0xDF ∧ 0x80 ≤ b ∧ b ≤ 0xBF then .char ((a - 0xC0) * 64 + (b - 0x80))
    else if 0xE0 ≤ a ∧ a ≤ 0xF4 ∧ 0x80 ≤ b ∧ b ≤ 0xBF ∧ ¬(a = 0xE0 ∧ b < 0xA0) ∧ ¬(a = 0xED ∧ 0xA0 ≤ b) ∧ ¬(a = 0xF0 ∧ b < 0x90) ∧
      ¬(a = 0xF4 ∧ 0x90 ≤ b) then .more
    else .bad
  | [a, b, c] =>
    if 0xE0 ≤ a ∧ a ≤ 0xF4 ∧ 0x80 ≤ b ∧ b ≤ 0xBF ∧ ¬(a = 0xE0 ∧ b < 0xA0) ∧ ¬(a = 0xED ∧ 0xA0 ≤ b) ∧ ¬(a = 0xF0 ∧ b < 0x90) ∧
      ¬(a = 0xF4 ∧ 0x90 ≤ b) ∧ 0x80 ≤ c ∧ c ≤ 0xBF then
      if a ≤ 0xEF then .char ((a - 0xE0) * 4096 + (b - 0x80) * 64 + (c - 0x80)) else .more
    else .bad
  | [a, b, c, d] =>
    if 0xF0 ≤ a ∧ a ≤ 0xF4 ∧ 0x80 ≤ b ∧ b ≤ 0xBF ∧ ¬(a = 0xF0 ∧ b < 0x90) ∧
      ¬(a = 0xF4 ∧ 0x90 ≤ b) ∧ 0x80 ≤ c ∧ c ≤ 0xBF ∧ 0x80 ≤ d ∧ d ≤ 0xBF then
      .char ((a - 0xF0) * 262144 + (b - 0x80) * 4096 + (c - 0x80) * 64 + (d - 0x80))
    else .bad
  | _ => .bad

/-- The locale ELC asks for (`en_US.utf8`, S/default_data_type.hpp:31). -/
def utf8Locale : Locale where
  enc c := if c ≤ 0x10FFFF ∧ ¬(0xD800 ≤ c ∧ c ≤ 0xDFFF) then some (ELC.Utf.Spec.utf8 c) else none
  status := utf8Status

/-- The locale every program starts with (`"C"`): ASCII. -/
def cLocale : Locale where
  enc c := if c < 128 then some [c] else none
  status
    | [] => .more
    | [a] => if a < 128 then .char a else .bad
    | _ => .bad

end ELC.Codec.Spec
