import Verif.Print.Lemmas
import Verif.Numeral.Props
/-!
Properties of the text of big integers with the library's own arithmetic.

`Stores w a x` (Ubig.Spec): the digit array `a` is the stored form of `x` with digits of `w` bits; `w` is 32 in a release
build and 8 in a debug build.  `Numeral R s x` (Numeral.Spec): `s` is the usual text of `x` in the representation `R`;
`Denotes R s x`: `s` is a text of digits with the value `x`.
-/
namespace ELC.Print
open ELC.Ubig.Spec (val Stores)
open ELC.Numeral (Rep State decimal binary octal hexadecimal hexadecimalUpper trinary)
open ELC.Numeral.Spec

/-! ### what the concrete cases are made of -/

/-- The `k` lowest digits of `w` bits of `x`. -/
def cells (w : Nat) : Nat → Nat → List Nat
  | 0, _ => []
  | k + 1, x => x % 2 ^ w :: cells w k (x / 2 ^ w)

/-- `to_size_t(n/magic_number::e)` for the sizes that occur below. -/
def cutE (n : Nat) : Nat := n * 10 ^ 9 / 2718281828

/-- The `k` lowest digits of `x` in base ten, the highest first. -/
def tens : Nat → Nat → List Nat
  | 0, _ => []
  | k + 1, x => tens k (x / 10) ++ [x % 10]

theorem cells_digits {w : Nat} (k : Nat) : ∀ x, Ubig.Spec.Digits w (cells w k x) := by
  induction k with
  | zero => intro x d hd; simp [cells] at hd
  | succ k ih =>
    intro x d hd
    simp only [cells, List.mem_cons] at hd
    rcases hd with rfl | hd
    · exact Nat.mod_lt _ (by positivity)
    · exact ih _ d hd

theorem cells_val {w : Nat} (k : Nat) : ∀ x, val w (cells w k x) = x % (2 ^ w) ^ k := by
  induction k with
  | zero => intro x; simp [cells, val, Nat.mod_one]
  | succ k ih =>
    intro x
    simp only [cells, val]
    rw [ih, pow_succ', Nat.mod_mul]

theorem cells_length {w : Nat} (k : Nat) : ∀ x, (cells w k x).length = k := by
  induction k with
  | zero => intro x; rfl
  | succ k ih => intro x; simp [cells, ih]

/-- A number of exactly `k` digits. -/
theorem cells_stores {w k x : Nat} (h1 : (2 ^ w) ^ (k - 1) ≤ x) (h2 : x < (2 ^ w) ^ k) (hk : 0 < k) :
    Stores w (cells w k x) x := by
  have hv : val w (cells w k x) = x := by rw [cells_val, Nat.mod_eq_of_lt h2]
  refine ⟨cells_digits k x, ?_, hv⟩
  intro d hd h0
  subst h0
  have hne : cells w k x ≠ [] := by
    intro h; rw [h] at hd; simp at hd
  obtain ⟨l, hl⟩ : ∃ l, cells w k x = l ++ [0] := by
    refine ⟨(cells w k x).dropLast, ?_⟩
    have := List.dropLast_append_getLast hne
    rw [List.getLast?_eq_some_getLast hne] at hd
    injection hd with hd
    rw [hd] at this
    exact this.symm
  have hlen : l.length = k - 1 := by
    have := cells_length (w := w) k x
    rw [hl] at this; simp at this; omega
  have hdl : Ubig.Spec.Digits w l := fun e he => cells_digits k x e (by rw [hl]; simp [he])
  have := Ubig.val_lt hdl
  rw [hlen] at this
  rw [hl, Ubig.val_append] at hv
  simp [val] at hv
  omega

theorem tens_lt (k : Nat) : ∀ x, ∀ d ∈ tens k x, d < 10 := by
  induction k with
  | zero => intro x d hd; simp [tens] at hd
  | succ k ih =>
    intro x d hd
    simp only [tens, List.mem_append, List.mem_singleton] at hd
    rcases hd with hd | rfl
    · exact ih _ d hd
    · omega

theorem tens_positional (k : Nat) : ∀ x, positional 10 (tens k x) = x % 10 ^ k := by
  induction k with
  | zero => intro x; simp [tens, positional, Nat.mod_one]
  | succ k ih =>
    intro x
    have := ih (x / 10)
    unfold positional at this ⊢
    simp only [tens, List.foldl_append, this, List.foldl_cons, List.foldl_nil]
    rw [pow_succ', Nat.mod_mul]
    omega

theorem tens_length (k : Nat) : ∀ x, (tens k x).length = k := by
  induction k with
  | zero => intro x; rfl
  | succ k ih => intro x; simp [tens, ih]

/-! ### C165: a big integer is printed as its numeral -/

/-- C165, numbers of at most 32 digits: a text that is delivered is the numeral.  What is missing: longer numbers
(`print_refuted`), and the delivery (`print_twelve`, `print_builtin`, `print_trinary_refuted`). -/
theorem print_small_partial {R : Rep} {w : Nat} {cut : Nat → Nat} (hw : 0 < w) (hd : w ∣ 64) (hR : Good R)
    (hr : R.radix < 2 ^ 64) {a s : List Nat} {x depth : Nat} (ha : Stores w a x) (h32 : a.length ≤ 32)
    (h : printBig R w cut depth a = some s) : Numeral R s x :=
  printBig_small hw hd hR.two hr depth ha h32 h

/-- C165, numbers of at most 12 digits: the numeral is delivered, in every representation whose radix takes at most two
digits. -/
theorem print_twelve {R : Rep} {w : Nat} (cut : Nat → Nat) (hw : w = 8 ∨ w = 32) (hR : Good R) (hr : R.radix < 2 ^ (2 * w))
    {a : List Nat} {x : Nat} (ha : Stores w a x) (h12 : a.length ≤ 12) :
    ∃ depth s, printBig R w cut depth a = some s ∧ Numeral R s x := by
  have hw0 : 0 < w := by omega
  have hw32 : w ≤ 32 := by omega
  have hd : w ∣ 64 := by rcases hw with rfl | rfl <;> decide
  have hr64 : R.radix < 2 ^ 64 :=
    lt_of_lt_of_le hr (Nat.pow_le_pow_right (by norm_num) (by omega))
  obtain ⟨depth, s, h⟩ := printBig_isSome (cut := cut) hw0 hd hR.two hr64 (by norm_num : 12 ≤ 32)
    (fun size h64 h12 => splitOk_twelve hw0 hw32 hr64 hr size h64 h12) x ha h12
  exact ⟨depth, s, h, printBig_small hw0 hd hR.two hr64 depth ha (by omega) h⟩

/-- `SplitOk` as a computation. -/
def splitOkB (w radix size : Nat) : Bool :=
  match splitOf w radix size with
  | none => true
  | some (b, _) => decide (2 * (b.length - Ubig.endZeros b - 1) ≤ size - Ubig.endZeros b)

theorem splitOk_of_b {w radix size : Nat} (h : splitOkB w radix size = true) : SplitOk w radix size := by
  intro b l e
  unfold splitOkB at h
  rw [e] at h
  simpa using h

/-- The whole table: the radices 2, 8, 10 and 16 with up to 32 digits of 8 or 32 bits. -/
theorem splitOk_builtin : ∀ w ∈ [8, 32], ∀ r ∈ [2, 8, 10, 16], ∀ size, size < 33 → 64 < w * size → SplitOk w r size := by
  have : ∀ w ∈ [8, 32], ∀ r ∈ [2, 8, 10, 16], ∀ size, size < 33 → 64 < w * size → splitOkB w r size = true := by
    decide +kernel
  exact fun w hw r hr size hs h => splitOk_of_b (this w hw r hr size hs h)

/-- C165, numbers of at most 32 digits (up to 308 decimal places in a release build, 77 in a debug build): the numeral is
delivered in every representation of radix two, eight, ten or sixteen. -/
theorem print_builtin {R : Rep} {w : Nat} (cut : Nat → Nat) (hw : w = 8 ∨ w = 32) (hR : Good R)
    (hr : R.radix = 2 ∨ R.radix = 8 ∨ R.radix = 10 ∨ R.radix = 16) {a : List Nat} {x : Nat} (ha : Stores w a x)
    (h32 : a.length ≤ 32) : ∃ depth s, printBig R w cut depth a = some s ∧ Numeral R s x := by
  have hw0 : 0 < w := by omega
  have hd : w ∣ 64 := by rcases hw with rfl | rfl <;> decide
  have hr64 : R.radix < 2 ^ 64 := by rcases hr with h | h | h | h <;> rw [h] <;> decide
  obtain ⟨depth, s, h⟩ := printBig_isSome (cut := cut) hw0 hd hR.two hr64 (le_refl 32)
    (fun size h64 h32 => splitOk_builtin w (by simpa using hw) R.radix (by simpa using hr) size (by omega) h64) x ha h32
  exact ⟨depth, s, h, printBig_small hw0 hd hR.two hr64 depth ha h32 h⟩

-- a number of 32 digits of 32 bits, and the representations that qualify
example : Stores 32 (cells 32 32 (10 ^ 308)) (10 ^ 308) := cells_stores (by decide +kernel) (by decide +kernel) (by decide)
example : decimal.radix = 10 ∧ binary.radix = 2 ∧ octal.radix = 8 ∧ hexadecimal.radix = 16 ∧ hexadecimalUpper.radix = 16 :=
  by decide

/-- C165, numbers of every size: a text that is delivered consists of digits and never denotes less than the number.  What
is missing: it may denote more (`print_refuted`). -/
theorem print_never_less_partial {R : Rep} {w : Nat} {cut : Nat → Nat} (hw : 0 < w) (h8 : 8 ∣ w) (hR : Good R)
    (hr : R.radix < 2 ^ 64) {a s : List Nat} {x depth : Nat} (ha : Stores w a x)
    (h : printBig R w cut depth a = some s) : ∃ v, Denotes R s v ∧ x ≤ v := by
  have := printBig_ge hw h8 hR.two hr depth ha.1 h
  rwa [ha.3] at this

/-- C165: one number has at most one text, however deep the recursion is allowed to be. -/
theorem print_deterministic {R : Rep} {w : Nat} {cut : Nat → Nat} {d e : Nat} {a s t : List Nat}
    (h1 : printBig R w cut d a = some s) (h2 : printBig R w cut e a = some t) : s = t := printBig_unique h1 h2

/-- One step of the recursion: the halves are printed right, so the text denotes what they say. -/
theorem print_step {R : Rep} {w : Nat} {cut : Nat → Nat} (hw : w = 8 ∨ w = 32) (hR : Good R) (hr : R.radix = 10)
    {a b q r : List Nat} {l vq vr : Nat} (hs : Convert.ubigSafe w ⟨false, 3⟩ a = false)
    (e1 : splitOf w 10 a.length = some (b, l)) (e2 : Ubig.divmod w cut a b = some (q, r)) (hq : Stores w q vq)
    (hrr : Stores w r vr) (lq : q.length ≤ 32) (lr : r.length ≤ 32) (hl : 1 ≤ l) (h1 : vr < 10 ^ l) (h2 : vq ≠ 0) :
    ∃ depth s, printBig R w cut depth a = some s ∧ Denotes R s (vq * 10 ^ l + vr) := by
  obtain ⟨d1, s1, p1, n1⟩ := print_builtin cut hw hR (by simp [hr]) hq lq
  obtain ⟨d2, s2, p2, n2⟩ := print_builtin cut hw hR (by simp [hr]) hrr lr
  refine ⟨d1 + d2 + 1, s1 ++ Numeral.padLeft l (R.getChar 0) s2, ?_, ?_⟩
  · have p1' := printBig_mono _ p1 d2
    have p2' := printBig_mono _ p2 d1
    rw [Nat.add_comm d2 d1] at p2'
    unfold printBig
    rw [hs, hr, e1]
    simp only [Bool.false_eq_true, if_false, Option.bind_some, e2, p1', p2', Option.map_some]
  · have := numeral_append hR.two hl n1 n2 (by rw [hr]; exact h1) h2
    rw [hr] at this
    exact numeral_denotes this

/-- C165 is false of the program: the decimal text of `10^420-1` in a release build, and of `10^102-1` in a debug build,
denotes another number: the quotient of the first division is
`2^32-1`, or `2^8-1`, too large. -/
theorem print_refuted :
    (∃ a depth s, Stores 32 a (10 ^ 420 - 1) ∧ printBig decimal 32 cutE depth a = some s ∧
      Denotes decimal s (10 ^ 420 - 1 + (2 ^ 32 - 1) * 10 ^ 256) ∧ ¬ Denotes decimal s (10 ^ 420 - 1)) ∧
    (∃ a depth s, Stores 8 a (10 ^ 102 - 1) ∧ printBig decimal 8 cutE depth a = some s ∧
      Denotes decimal s (10 ^ 102 - 1 + (2 ^ 8 - 1) * 10 ^ 64) ∧ ¬ Denotes decimal s (10 ^ 102 - 1)) := by
  have hg := Numeral.builtin_usable.2.2.2.1.good
  refine ⟨⟨cells 32 44 (10 ^ 420 - 1), ?_⟩, ⟨cells 8 43 (10 ^ 102 - 1), ?_⟩⟩
  · obtain ⟨depth, s, h1, h2⟩ := print_step (R := decimal) (w := 32) (cut := cutE) (Or.inr rfl) hg (by decide)
      (a := cells 32 44 (10 ^ 420 - 1)) (b := cells 32 27 (10 ^ 256)) (l := 256)
      (q := cells 32 18 (10 ^ 164 + 4294967294)) (r := cells 32 27 (10 ^ 256 - 1)) (vq := 10 ^ 164 + 4294967294)
      (vr := 10 ^ 256 - 1)
      (by decide +kernel) (by decide +kernel) (by decide +kernel)
      (cells_stores (by decide +kernel) (by decide +kernel) (by decide))
      (cells_stores (by decide +kernel) (by decide +kernel) (by decide)) (by decide +kernel) (by decide +kernel)
      (by decide) (by decide +kernel) (by decide +kernel)
    rw [show (10 ^ 164 + 4294967294) * 10 ^ 256 + (10 ^ 256 - 1) = 10 ^ 420 - 1 + (2 ^ 32 - 1) * 10 ^ 256 by decide +kernel] at h2
    refine ⟨depth, s, cells_stores (by decide +kernel) (by decide +kernel) (by decide), h1, h2, fun h3 => ?_⟩
    have := denotes_unique hg h2 h3
    revert this
    decide +kernel
  · obtain ⟨depth, s, h1, h2⟩ := print_step (R := decimal) (w := 8) (cut := cutE) (Or.inl rfl) hg (by decide)
      (a := cells 8 43 (10 ^ 102 - 1)) (b := cells 8 27 (10 ^ 64)) (l := 64)
      (q := cells 8 16 (10 ^ 38 + 254)) (r := cells 8 27 (10 ^ 64 - 1)) (vq := 10 ^ 38 + 254) (vr := 10 ^ 64 - 1)
      (by decide +kernel) (by decide +kernel) (by decide +kernel)
      (cells_stores (by decide +kernel) (by decide +kernel) (by decide))
      (cells_stores (by decide +kernel) (by decide +kernel) (by decide)) (by decide +kernel) (by decide +kernel)
      (by decide) (by decide +kernel) (by decide +kernel)
    rw [show (10 ^ 38 + 254) * 10 ^ 64 + (10 ^ 64 - 1) = 10 ^ 102 - 1 + (2 ^ 8 - 1) * 10 ^ 64 by decide +kernel] at h2
    refine ⟨depth, s, cells_stores (by decide +kernel) (by decide +kernel) (by decide), h1, h2, fun h3 => ?_⟩
    have := denotes_unique hg h2 h3
    revert this
    decide +kernel

/-- C165 is false of the program: the number `3^430-1` has no text in the representation of radix three (22 digits). -/
theorem print_trinary_refuted : Stores 32 (cells 32 22 (3 ^ 430 - 1)) (3 ^ 430 - 1) ∧
    ∀ depth, printBig trinary 32 cutE depth (cells 32 22 (3 ^ 430 - 1)) = none := by
  refine ⟨cells_stores (by decide +kernel) (by decide +kernel) (by decide), fun depth => ?_⟩
  cases depth with
  | zero => rfl
  | succ n =>
    have e0 : Convert.ubigSafe 32 ⟨false, 3⟩ (cells 32 22 (3 ^ 430 - 1)) = false := by decide +kernel
    have e1 : splitOf 32 3 (cells 32 22 (3 ^ 430 - 1)).length = some (cells 32 13 (3 ^ 256), 256) := by decide +kernel
    have e2 : Ubig.divmod 32 cutE (cells 32 22 (3 ^ 430 - 1)) (cells 32 13 (3 ^ 256)) = none := by decide +kernel
    unfold printBig
    rw [e0, show trinary.radix = 3 from rfl, e1]
    simp only [Bool.false_eq_true, if_false, Option.bind_some, e2, Option.bind_none]

/-- C165 is false of the program: when the lower part of the text stands for a number of more than 32 digits, nothing is
delivered: the remainder is scaled back by an undefined division. -/
theorem print_long_refuted {R : Rep} {w : Nat} (cut : Nat → Nat) (hw : 0 < w) (hd : w ∣ 64) (hR : Good R)
    (hr : R.radix < 2 ^ 64) {a b : List Nat} {x l : Nat} (ha : Stores w a x) (hx : 2 ^ 64 ≤ x)
    (hs : splitOf w R.radix a.length = some (b, l)) (hlong : (2 ^ w) ^ 32 ≤ x % R.radix ^ l) (depth : Nat) :
    printBig R w cut depth a = none := by
  cases depth with
  | zero => rfl
  | succ n =>
    have e0 : ¬ Convert.ubigSafe w ⟨false, 3⟩ a = true := fun h => by
      have := (safe_iff hw hd ha).1 h
      omega
    obtain ⟨sb, _, _⟩ := splitOf_spec hw hr hs
    have hle := splitOf_lt hw hr ha hx hs
    have hy : 0 < R.radix ^ l := Nat.pow_pos (by have := hR.two; omega)
    have e2 := (Ubig.long_remainder_refuted cut hw ha sb hle hy hlong).2
    unfold printBig
    rw [if_neg e0, hs]
    simp only [Option.bind_some, e2, Option.bind_none]

-- 10^900-1: 94 digits of 32 bits; the lower part has 512 decimal places
example : Stores 32 (cells 32 94 (10 ^ 900 - 1)) (10 ^ 900 - 1) ∧
    splitOf 32 10 94 = some (cells 32 54 (10 ^ 512), 512) ∧ (2 ^ 32) ^ 32 ≤ (10 ^ 900 - 1) % 10 ^ 512 :=
  ⟨cells_stores (by decide +kernel) (by decide +kernel) (by decide), by decide +kernel, by decide +kernel⟩

/-! ### C166: a text of digits is read as its number -/

/-- C166, texts of every length: a number that is delivered is the one the text denotes; an error is reported exactly for
a character that is not a digit. -/
theorem read_delivered {R : Rep} {w thr : Nat} (hw : 0 < w) (hR : Good R) (hr : R.radix < 2 ^ 64) (h1 : 1 ≤ thr)
    (h64 : R.radix ^ thr ≤ 2 ^ 64) {s d : List Nat} {st st' : State} (hst : st.error = false)
    (h : read R w thr s st = some (d, st')) :
    (∀ n, Denotes R s n → Stores w d n ∧ st' = st) ∧
    (st'.error = true ↔ ∃ c ∈ s, NotDigit R c) ∧ (st'.error = true → st'.invalidChar = true ∧ Stores w d 0) := by
  obtain ⟨hs, hf⟩ := readBig_some hw hr h1 _ h
  obtain ⟨r, g1, g2, g3, g4⟩ := Numeral.big_from_string_error_iff hR thr h1 h64 s st hst
  rw [hf] at g1
  injection g1 with g1
  subst g1
  refine ⟨fun n hn => ?_, g2, fun he => ?_⟩
  · have := g4 n hn
    rw [Prod.mk.injEq] at this
    exact ⟨⟨hs.1, hs.2, this.1⟩, this.2⟩
  · have := g3 he
    rw [Prod.mk.injEq] at this
    refine ⟨by rw [this.2], ⟨hs.1, hs.2, this.1⟩⟩

/-- C166, texts of bounded length: the number is delivered.  The length may be three times a power of two, if the radix to
that power takes less than 64 digits.  What is missing: longer texts (`read_refuted`). -/
theorem read_partial {R : Rep} {w thr K : Nat} (hw : 0 < w) (hR : Good R) (hr : R.radix < 2 ^ 64) (h1 : 1 ≤ thr)
    (h64 : R.radix ^ thr ≤ 2 ^ 64) (h63 : R.radix ^ 2 ^ K < 2 ^ (63 * w)) {s : List Nat} {st : State}
    (hst : st.error = false) (hK : s.length ≤ 3 * 2 ^ K) :
    ∃ d st', read R w thr s st = some (d, st') ∧ (∀ n, Denotes R s n → Stores w d n ∧ st' = st) ∧
      (st'.error = true ↔ ∃ c ∈ s, NotDigit R c) := by
  obtain ⟨⟨d, st'⟩, h⟩ := readBig_isSome hw hR.two hr h1 h63 (s.length + 1) st hK (Nat.lt_succ_self _)
  obtain ⟨g1, g2, _⟩ := read_delivered hw hR hr h1 h64 hst h
  exact ⟨d, st', h, g1, g2⟩

-- decimal texts of up to 1536 characters in a release build and of up to 384 characters in a debug build
example : decimal.radix ^ 2 ^ 9 < 2 ^ (63 * 32) ∧ 3 * 2 ^ 9 = 1536 ∧ decimal.radix ^ 2 ^ 7 < 2 ^ (63 * 8) ∧
    3 * 2 ^ 7 = 384 ∧ decimal.radix ^ 19 ≤ 2 ^ 64 := by decide +kernel

/-- C166: the model's bound on the recursion is never what decides. -/
theorem read_depth_irrelevant {R : Rep} {w thr : Nat} (hw : 0 < w) (hr : R.radix < 2 ^ 64) (h1 : 1 ≤ thr) (s : List Nat)
    (st : State) (depth : Nat) (h : s.length < depth) : readBig R w thr depth s st = read R w thr s st := by
  have := readBig_fuel (R := R) hw hr h1 (s.length + 1) st (Nat.lt_succ_self s.length) (depth - (s.length + 1))
  rw [show s.length + 1 + (depth - (s.length + 1)) = depth by omega] at this
  exact this

/-- The higher part of the text that is not read. -/
def overrunNum (w ten : Nat) : Nat := 2 ^ (w * 171) / 10 ^ ten + 1

/-- The numeral of `x` with `k` places, and `z` zeros. -/
def overrunText (k x z : Nat) : List Nat := (tens k x).map decimal.getChar ++ List.replicate z 0x30

theorem overrunText_length (k x z : Nat) : (overrunText k x z).length = k + z := by simp [overrunText, tens_length]

theorem overrunText_denotes (k x z : Nat) (hx : x < 10 ^ k) : Denotes decimal (overrunText k x z) (x * 10 ^ z) := by
  refine ⟨tens k x ++ List.replicate z 0, by simp only [overrunText, List.map_append, List.map_replicate]; rfl, ?_, ?_⟩
  · intro d hd
    rw [List.mem_append] at hd
    rcases hd with hd | hd
    · exact tens_lt k x d hd
    · rw [(List.mem_replicate.1 hd).2]; decide
  · have h1 := tens_positional k x
    rw [Nat.mod_eq_of_lt hx] at h1
    unfold positional at h1 ⊢
    rw [List.foldl_append, show decimal.radix = 10 from rfl, h1]
    clear h1 hx
    induction z generalizing x with
    | zero => simp
    | succ z ih =>
      rw [List.replicate_succ, List.foldl_cons, Nat.add_zero, ih (x * 10), pow_succ']
      ring

/-- A text is not read if the product of its parts is not delivered. -/
theorem read_step {w k x z : Nat} {b c : List Nat} (hw : 0 < w) (hx : x < 10 ^ k) (hk : 19 < k + z)
    (e0 : Ubig.ofNative w 64 10 = some [10]) (e1 : splitText w (k + z) (k + z) [10] 1 = some (b, z)) (hc : Stores w c x)
    (e2 : Ubig.mul w c b = none) : read decimal w 19 (overrunText k x z) {} = none := by
  have hg := Numeral.builtin_usable.2.2.2.1.good
  have hlen := overrunText_length k x z
  have htake : (overrunText k x z).take k = overrunText k x 0 := by
    simp only [overrunText, List.replicate_zero, List.append_nil]
    rw [List.take_append_of_le_length (by simp [tens_length]), List.take_of_length_le (by simp [tens_length])]
  unfold read
  unfold readBig
  rw [hlen, if_pos (by omega), show decimal.radix = 10 from rfl, e0, Option.bind_some, e1, Option.bind_some]
  dsimp only
  rw [if_neg (by omega), Nat.add_sub_cancel, htake]
  cases e3 : readBig decimal w 19 (k + z) (overrunText k x 0) {} with
  | none => rfl
  | some p =>
    obtain ⟨d, st⟩ := p
    obtain ⟨hs, hf⟩ := readBig_some hw (by decide) (by decide) _ e3
    rw [Numeral.big_from_string_correct hg 19 (by decide) (by decide) _ _ (overrunText_denotes k x 0 hx) {} rfl] at hf
    rw [Option.some.injEq, Prod.mk.injEq] at hf
    obtain ⟨hv, rfl⟩ := hf
    rw [pow_zero, Nat.mul_one] at hv
    rw [← hv] at hs
    have hd : d = c := Ubig.stores_unique hs hc
    subst hd
    rw [Option.bind_some]
    simp only [Bool.false_eq_true, if_false, e2, Option.bind_none]
    cases e4 : readBig decimal w 19 (k + z) ((overrunText k x z).drop k) {} with
    | none => rfl
    | some q =>
      obtain ⟨d', st'⟩ := q
      obtain ⟨_, hf'⟩ := readBig_some hw (by decide) (by decide) _ e4
      have hdrop : (overrunText k x z).drop k = overrunText 0 0 z := by
        simp only [overrunText, tens, List.map_nil, List.nil_append]
        rw [List.drop_append, List.drop_of_length_le (by simp [tens_length])]
        simp [tens_length]
      rw [hdrop, Numeral.big_from_string_correct hg 19 (by decide) (by decide) _ _
        (overrunText_denotes 0 0 z (by decide)) {} rfl] at hf'
      rw [Option.some.injEq, Prod.mk.injEq] at hf'
      obtain ⟨_, rfl⟩ := hf'
      simp

/-- C166 is false of the program: a decimal text of 1648 characters in a release build, and one of 412 characters in a debug
build, that is not read: the product of the two parts runs out of its buffer. -/
theorem read_refuted :
    (∃ s n, s.length = 1648 ∧ Denotes decimal s n ∧ read decimal 32 19 s {} = none) ∧
    (∃ s n, s.length = 412 ∧ Denotes decimal s n ∧ read decimal 8 19 s {} = none) := by
  refine ⟨⟨overrunText 624 (overrunNum 32 1024) 1024, _, ?_, overrunText_denotes _ _ _ (by decide +kernel), ?_⟩,
    ⟨overrunText 156 (overrunNum 8 256) 256, _, ?_, overrunText_denotes _ _ _ (by decide +kernel), ?_⟩⟩
  · exact overrunText_length _ _ _
  · exact read_step (b := cells 32 107 (10 ^ 1024)) (c := cells 32 65 (overrunNum 32 1024)) (by decide) (by decide +kernel)
      (by decide) (by decide +kernel) (by decide +kernel)
      (cells_stores (by decide +kernel) (by decide +kernel) (by decide)) (by decide +kernel)
  · exact overrunText_length _ _ _
  · exact read_step (b := cells 8 107 (10 ^ 256)) (c := cells 8 65 (overrunNum 8 256)) (by decide) (by decide +kernel)
      (by decide) (by decide +kernel) (by decide +kernel)
      (cells_stores (by decide +kernel) (by decide +kernel) (by decide)) (by decide +kernel)

/-- C166: what was printed from at most 32 digits is read back, in the representations of radix two, eight, ten and
sixteen. -/
theorem print_read_round_trip {R : Rep} {w thr : Nat} (cut : Nat → Nat) (hw : w = 8 ∨ w = 32) (hR : Good R)
    (hr : R.radix = 2 ∨ R.radix = 8 ∨ R.radix = 10 ∨ R.radix = 16) (h1 : 1 ≤ thr) (h64 : R.radix ^ thr ≤ 2 ^ 64)
    {a : List Nat} {x : Nat} (ha : Stores w a x) (h32 : a.length ≤ 32) {st : State} (hst : st.error = false) :
    ∃ depth s, printBig R w cut depth a = some s ∧ read R w thr s st = some (a, st) := by
  obtain ⟨depth, s, p, hn⟩ := print_builtin cut hw hR hr ha h32
  have hr64 : R.radix < 2 ^ 64 := by rcases hr with h | h | h | h <;> rw [h] <;> decide
  refine ⟨depth, s, p, ?_⟩
  have hx : x < 2 ^ (w * 32) := by
    have := Ubig.val_lt ha.1
    rw [ha.3] at this
    refine lt_of_lt_of_le this ?_
    rw [← pow_mul]
    exact Nat.pow_le_pow_right (by norm_num) (Nat.mul_le_mul_left _ h32)
  -- the number of characters
  have hlen : ∀ l, 1 ≤ l → x < R.radix ^ l → s.length ≤ l := by
    intro l hl hxl
    obtain ⟨ds, rfl, g1, g2, g3, g4⟩ := hn
    rw [List.length_map]
    exact numeral_length hR.two g2 g3 g4 hl hxl
  have key : ∀ K, x < R.radix ^ (3 * 2 ^ K) → R.radix ^ 2 ^ K < 2 ^ (63 * w) → read R w thr s st = some (a, st) := by
    intro K hK h63
    obtain ⟨d, st', g, g1, _⟩ := read_partial (by omega) hR hr64 h1 h64 h63 hst
      (hlen _ (by have := Nat.one_le_two_pow (n := K); omega) hK)
    obtain ⟨g2, rfl⟩ := g1 x (numeral_denotes hn)
    rw [g, Ubig.stores_unique g2 ha]
  rcases hw with rfl | rfl
  · rcases hr with h | h | h | h
    · exact key 7 (lt_of_lt_of_le hx (by rw [h]; decide +kernel)) (by rw [h]; decide +kernel)
    · exact key 5 (lt_of_lt_of_le hx (by rw [h]; decide +kernel)) (by rw [h]; decide +kernel)
    · exact key 5 (lt_of_lt_of_le hx (by rw [h]; decide +kernel)) (by rw [h]; decide +kernel)
    · exact key 5 (lt_of_lt_of_le hx (by rw [h]; decide +kernel)) (by rw [h]; decide +kernel)
  · rcases hr with h | h | h | h
    · exact key 9 (lt_of_lt_of_le hx (by rw [h]; decide +kernel)) (by rw [h]; decide +kernel)
    · exact key 7 (lt_of_lt_of_le hx (by rw [h]; decide +kernel)) (by rw [h]; decide +kernel)
    · exact key 7 (lt_of_lt_of_le hx (by rw [h]; decide +kernel)) (by rw [h]; decide +kernel)
    · exact key 7 (lt_of_lt_of_le hx (by rw [h]; decide +kernel)) (by rw [h]; decide +kernel)

end ELC.Print
