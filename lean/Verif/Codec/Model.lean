/-!
Conversion between text and the bytes the system uses: `S/APIs/str_code_convert.hpp`, and the functions that give names to the
system: `S/paths.hpp:57-69`, `S/APIs/library_load.hpp:101-114`.

The C library is a parameter: its locale says how a character is written (`c32rtomb`) and what a sequence of bytes read so far
is (`mbrtoc32` reads one byte after the other until it knows).  Locales have no shift states here, as on the systems ELC runs on.
Characters are numbers (`char_t` is `char32_t`), bytes are numbers.  The growing result string is a list; that appending
to strings is right is C45 and C63.
-/
namespace ELC.Codec

/-- What the bytes read so far are. -/
inductive Status where
  /-- a character, complete -/
  | char (c : Nat)
  /-- the beginning of a character -/
  | more
  /-- neither -/
  | bad
deriving DecidableEq, Repr

/-- The locale of the C library. -/
structure Locale where
  /-- what `c32rtomb` writes for a character; nothing if it has no encoding -/
  enc : Nat → Option (List Nat)
  /-- how `mbrtoc32` sees the bytes it has read -/
  status : List Nat → Status

/-- How a call ends. -/
inductive Out (A : Type) where
  | ok (a : A)
  /-- `die_with(code_convert_error)` -/
  | died
  /-- memory was read that cannot be read -/
  | fault
deriving DecidableEq, Repr

/-- `MB_LEN_MAX` (16 in glibc). -/
def mbLenMax : Nat := 16

/-- str_code_convert.hpp:43-58 `to_char_str`: the loop over the characters, `aret` being what is converted so far. -/
def toCharStrLoop (L : Locale) (aret : List Nat) : List Nat → Out (List Nat)
  | [] => .ok aret
  | c :: a =>
    match L.enc c with
    | none => .died
    | some r => toCharStrLoop L (aret ++ r) a

/-- str_code_convert.hpp:43-58 `to_char_str`. -/
def toCharStr (L : Locale) (a : List Nat) : Out (List Nat) := toCharStrLoop L [] a

/-- Memory from the beginning of the bytes to convert on: they are followed by anything, and where it says `none` it cannot be
read. -/
abbrev Mem := Nat → Option Nat

/-- What `mbrtoc32` answers. -/
inductive Mb where
  /-- the character, and the number of its bytes (0 for the character 0) -/
  | char (c : Nat) (s : Nat)
  /-- a negative number: -1 for what is no character, -2 when `n` bytes are only the beginning of one -/
  | negative
  | fault
deriving DecidableEq, Repr

/-- `::std::mbrtoc32(&c,i,n,&stat)` (ISO C 7.30.1.3): reads at most `n` more bytes behind the bytes `seen` at `i`. -/
def mbrtoc32 (L : Locale) (m : Mem) (i : Nat) (seen : List Nat) : Nat → Mb
  | 0 => .negative
  | n + 1 =>
    match m (i + seen.length) with
    | none => .fault
    | some b =>
      match L.status (seen ++ [b]) with
      | .char c => .char c (if c = 0 then 0 else seen.length + 1)
      | .more => mbrtoc32 L m i (seen ++ [b]) n
      | .bad => .negative

/-- str_code_convert.hpp:59-77 `to_char_t_str`: the loop, from `i` to `e`; `aret` is what is converted so far.  Nothing if it has not
ended after `fuel` rounds. -/
def toCharTStrLoop (L : Locale) (m : Mem) (e : Nat) : Nat → Nat → List Nat → Option (Out (List Nat))
  | 0, _, _ => none
  | fuel + 1, i, aret =>
    if i = e then some (.ok aret)
    else
      match mbrtoc32 L m i [] mbLenMax with
      | .fault => some .fault
      | .negative => some .died
      | .char c s => toCharTStrLoop L m e fuel (i + s) (aret ++ [c])

/-- Memory with the bytes `a` and then `after`. -/
def memOf (a : List Nat) (after : Mem) : Mem := fun i => if i < a.length then a[i]? else after (i - a.length)

/-- str_code_convert.hpp:59-77 `to_char_t_str` of a view of the bytes `a`, in memory followed by `after`. -/
def toCharTStr (L : Locale) (a : List Nat) (after : Mem) (fuel : Nat) : Option (Out (List Nat)) :=
  toCharTStrLoop L (memOf a after) a.length fuel 0 []

/-- What a function of the C library sees of the bytes `a` given with `c_str()`: all up to the first zero. -/
def cName (a : List Nat) : List Nat := a.takeWhile (· ≠ 0)

/-- paths.hpp:57-69 `file_exists`, library_load.hpp:101-104 `load_library`, 111-114 `get_symbol`: the question `sys` to the system about
a name. -/
def askSystem {A : Type} (L : Locale) (sys : List Nat → A) (name : List Nat) : Out A :=
  match toCharStr L name with
  | .ok a => .ok (sys (cName a))
  | .died => .died
  | .fault => .fault

end ELC.Codec
