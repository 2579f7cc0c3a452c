import Verif.Bits.Lemmas

/-! Properties C33 (bit operations) and C34 (bitset). -/
namespace ELC.Bits
open Spec

/-! ### C33 -/

/-- C33: `rotl` moves bit `j` to bit `j + r` around the word, for every width and count. -/
theorem rotl_bits {w : Nat} (v : BitVec w) (r j : Nat) (hj : j < w) :
    (rotl v r).getLsbD ((j + r) % w) = v.getLsbD j := by
  have hw : 0 < w := by omega
  have hr : r % w < w := Nat.mod_lt _ hw
  unfold rotl
  rw [getLsbD_rotlNomod _ _ _ hr (Nat.mod_lt _ hw)]
  congr 1
  rw [Nat.add_mod, Nat.mod_eq_of_lt hj]
  by_cases h : j + r % w < w
  · rw [Nat.mod_eq_of_lt h, show j + r % w + w - r % w = j + w by omega, Nat.add_mod_right,
      Nat.mod_eq_of_lt hj]
  · have h1 : (j + r % w) % w = j + r % w - w := by
      rw [Nat.mod_eq_sub_mod (by omega), Nat.mod_eq_of_lt (by omega)]
    rw [h1, show j + r % w - w + w - r % w = j by omega, Nat.mod_eq_of_lt hj]

/-- C33: `rotr` moves bit `j + r` (around the word) to bit `j`. -/
theorem rotr_bits {w : Nat} (v : BitVec w) (r j : Nat) (hj : j < w) :
    (rotr v r).getLsbD j = v.getLsbD ((j + r) % w) := by
  have hw : 0 < w := by omega
  unfold rotr
  rw [getLsbD_rotrNomod _ _ _ (Nat.mod_lt _ hw) hj, Nat.add_mod_mod]

/-- C33: rotating left and then right by the same count gives the word back. -/
theorem rotr_rotl {w : Nat} (v : BitVec w) (r : Nat) : rotr (rotl v r) r = v := by
  apply BitVec.eq_of_getLsbD_eq
  intro i hi
  rw [rotr_bits _ _ _ hi, rotl_bits _ _ _ hi]

/-- C33: and the other way round. -/
theorem rotl_rotr {w : Nat} (v : BitVec w) (r : Nat) : rotl (rotr v r) r = v := by
  apply BitVec.eq_of_getLsbD_eq
  intro i hi
  have hw : 0 < w := by omega
  have hr : r % w < w := Nat.mod_lt _ hw
  unfold rotl
  rw [getLsbD_rotlNomod _ _ _ hr hi, rotr_bits _ _ _ (Nat.mod_lt _ hw)]
  congr 1
  rw [Nat.add_mod, Nat.mod_mod]
  by_cases h : i < r % w
  · rw [Nat.mod_eq_of_lt (by omega : i + w - r % w < w), show i + w - r % w + r % w = i + w by omega,
      Nat.add_mod_right, Nat.mod_eq_of_lt hi]
  · rw [show i + w - r % w = i - r % w + w by omega, Nat.add_mod_right,
      Nat.mod_eq_of_lt (by omega : i - r % w < w), show i - r % w + r % w = i by omega,
      Nat.mod_eq_of_lt hi]

/-- C33: a rotation iterator started at `o` and advanced `k` times rotates by `o + k`. -/
theorem rot_iterator_advance {w : Nat} (hw : 0 < w) (v : BitVec w) (o k : Nat) :
    rotlNomod v (steps (rotIterInc w) k (rotIterInit w o)) = rotl v (o + k) ∧
    rotrNomod v (steps (rotIterInc w) k (rotIterInit w o)) = rotr v (o + k) := by
  have key : steps (rotIterInc w) k (rotIterInit w o) = (o + k) % w := by
    induction k with
    | zero => rfl
    | succ k ih =>
      simp only [steps, ih, rotIterInc]
      have := Nat.mod_lt (o + k) hw
      rw [← Nat.add_assoc, ← Nat.mod_add_mod (o + k) w 1]
      by_cases h : (o + k) % w + 1 = w
      · simp [h]
      · simp only [beq_iff_eq, h, if_false]
        exact (Nat.mod_eq_of_lt (by omega : (o + k) % w + 1 < w)).symm
  rw [key]; exact ⟨rfl, rfl⟩

/-- C33: stepping a rotation iterator back undoes a step forward. -/
theorem rot_iterator_dec_inc {w : Nat} (o : Nat) (_h : o < w) :
    rotIterDec w (rotIterInc w o) = o := by
  unfold rotIterDec rotIterInc
  simp only [beq_iff_eq]
  split <;> split <;> omega

/-- C33: `get_bitnum` is the number of binary digits, for every word size `8·2^k`. -/
theorem get_bitnum_correct (k v : Nat) (h : v < 2 ^ bitsOf k) : BinaryLength v (getBitnum k v) :=
  getBitnum_spec k v h

/-- C33: `countl_zero` counts the leading zeros. -/
theorem countl_zero_correct (k v : Nat) (h : v < 2 ^ bitsOf k) :
    RunLength (fromLeft (bitsOf k) v) (bitsOf k) false (countlZero k v) := countlZero_spec k v h

/-- C33: `countr_zero` counts the trailing zeros (the whole width for zero). -/
theorem countr_zero_correct (k v : Nat) (h : v < 2 ^ bitsOf k) :
    RunLength (fromRight v) (bitsOf k) false (countrZero k v) := countrZero_spec k v h

/-- C33: `countl_one` counts the leading ones. -/
theorem countl_one_correct (k v : Nat) (h : v < 2 ^ bitsOf k) :
    RunLength (fromLeft (bitsOf k) v) (bitsOf k) true (countlOne k v) := countlOne_spec k v h

/-- C33: `countr_one` counts the trailing ones. -/
theorem countr_one_correct (k v : Nat) (h : v < 2 ^ bitsOf k) :
    RunLength (fromRight v) (bitsOf k) true (countrOne k v) := countrOne_spec k v h

/-- C33: the specification determines the count, so the theorems above fix the result. -/
theorem counts_unique {f : Nat → Bool} {W : Nat} {b : Bool} {z z' : Nat}
    (h : RunLength f W b z) (h' : RunLength f W b z') : z = z' := runLength_unique h h'

/-- C33: `all_bit_is_one`. -/
theorem all_bit_is_one_correct (k v : Nat) (h : v < 2 ^ bitsOf k) :
    allBitIsOne k v = true ↔ ∀ i, i < bitsOf k → v.testBit i = true := by
  simp only [allBitIsOne, beq_iff_eq]
  constructor
  · intro he i hi
    exact all_ones_of_eq (by rw [Nat.mod_eq_of_lt h]; exact he) i hi
  · intro ha
    apply Classical.byContradiction
    intro hne
    obtain ⟨i, hi, hb⟩ := exists_zero_of_ne h hne
    rw [ha i hi] at hb; cases hb

/-- C33 fails for `all_bit_is_zero`: it answers the opposite for every word. -/
theorem all_bit_is_zero_refuted (k v : Nat) (h : v < 2 ^ bitsOf k) :
    allBitIsZero k v = true ↔ ¬ ∀ i, i < bitsOf k → v.testBit i = false := by
  simp only [allBitIsZero, bne_iff_ne, ne_eq]
  constructor
  · intro hne ha
    obtain ⟨i, hi⟩ := Nat.exists_testBit_of_ne_zero hne
    by_cases hc : i < bitsOf k
    · rw [ha i hc] at hi; cases hi
    · rw [Nat.testBit_lt_two_pow (Nat.lt_of_lt_of_le h
        (Nat.pow_le_pow_right (by decide) (by omega)))] at hi
      cases hi
  · intro hn h0
    subst h0
    exact hn (fun i _ => by simp)

-- the hypotheses are met by ordinary words
example : (0xabcd : Nat) < 2 ^ bitsOf 1 := by decide
example : RunLength (fromRight 0xabc0) 16 false 6 := by
  refine ⟨by omega, ?_, fun _ => by decide⟩
  decide

/-! ### C34 -/

/-- C34: after assigning bit `i`, reading `i` gives the assigned value and every other bit is
unchanged; the assignment succeeds for every index inside the storage. -/
theorem bitset_set_get (d : Bytes) (i : Nat) (b : Bool) (hi : i < 8 * d.length) :
    ∃ d', bsSet d i b = some d' ∧ d'.length = d.length ∧
      ∀ j, bsGet d' j = if j = i then some b else bsGet d j := by
  have hq : i / 8 < d.length := by omega
  have hm : i % 8 < 8 := Nat.mod_lt _ (by decide)
  unfold bsSet
  cases b with
  | true =>
    refine ⟨d.modify (i / 8) (· ||| (1#8 <<< (i % 8))), by simp [bsUpdate, hq], ?_⟩
    have h := fun j => bsGet_update d i j (· ||| (1#8 <<< (i % 8)))
      (d.modify (i / 8) (· ||| (1#8 <<< (i % 8))))
      (by intro x m h8 hne; simp [h8]; intro; omega) (by simp [bsUpdate, hq])
    refine ⟨(h 0).1, fun j => ?_⟩
    rw [(h j).2]
    split
    · rw [List.getElem?_eq_getElem hq]; simp [hm]
    · rfl
  | false =>
    refine ⟨d.modify (i / 8) (· &&& ~~~(1#8 <<< (i % 8))), by simp [bsUpdate, hq], ?_⟩
    have h := fun j => bsGet_update d i j (· &&& ~~~(1#8 <<< (i % 8)))
      (d.modify (i / 8) (· &&& ~~~(1#8 <<< (i % 8))))
      (by intro x m h8 hne; simp [h8]; intro _; omega) (by simp [bsUpdate, hq])
    refine ⟨(h 0).1, fun j => ?_⟩
    rw [(h j).2]
    split
    · rw [List.getElem?_eq_getElem hq]; simp [hm]
    · rfl

/-- C34: `bits[i] ^= b`, `bits[i] |= b`, `bits[i] &= b` combine the bit with `b` and leave the other
bits alone. -/
theorem bitset_compound_get (d : Bytes) (i : Nat) (b x : Bool) (hx : bsGet d i = some x) :
    (∃ d', bsXorSet d i b = some d' ∧
      ∀ j, bsGet d' j = if j = i then some (x ^^ b) else bsGet d j) ∧
    (∃ d', bsOrSet d i b = some d' ∧
      ∀ j, bsGet d' j = if j = i then some (x || b) else bsGet d j) ∧
    (∃ d', bsAndSet d i b = some d' ∧
      ∀ j, bsGet d' j = if j = i then some (x && b) else bsGet d j) := by
  have hq : i / 8 < d.length := by
    rw [bsGet_eq] at hx
    by_cases h : i / 8 < d.length
    · exact h
    · rw [List.getElem?_eq_none (by omega)] at hx; cases hx
  have hself : ∀ j, bsGet d j = if j = i then some x else bsGet d j := by
    intro j; split
    · next h => rw [h, hx]
    · rfl
  have hm : i % 8 < 8 := Nat.mod_lt _ (by decide)
  have hx' := hx
  rw [bsGet_eq, List.getElem?_eq_getElem hq] at hx'
  simp only [Option.map_some, Option.some.injEq] at hx'
  obtain ⟨dt, ht1, _, ht3⟩ := bitset_set_get d i true (by omega)
  obtain ⟨df, hf1, _, hf3⟩ := bitset_set_get d i false (by omega)
  refine ⟨?_, ?_, ?_⟩
  · cases b with
    | false => exact ⟨d, by simp [bsXorSet], by simpa using hself⟩
    | true =>
      refine ⟨d.modify (i / 8) (· ^^^ (1#8 <<< (i % 8))), by simp [bsXorSet, bsUpdate, hq],
        fun j => ?_⟩
      have h := bsGet_update d i j (· ^^^ (1#8 <<< (i % 8)))
        (d.modify (i / 8) (· ^^^ (1#8 <<< (i % 8))))
        (by
          intro x m h8 hne
          have hcase : m < i % 8 ∨ ¬ m - i % 8 = 0 := by omega
          rcases hcase with hc | hc <;> simp [h8, hc]) (by simp [bsUpdate, hq])
      rw [h.2]
      split
      · rw [List.getElem?_eq_getElem hq]; simp [hm, ← hx']
      · rfl
  · cases b with
    | false => exact ⟨d, by simp [bsOrSet], by simpa using hself⟩
    | true => exact ⟨dt, by simpa [bsOrSet, bsSet] using ht1, by simpa using ht3⟩
  · cases b with
    | true => exact ⟨d, by simp [bsAndSet], by simpa using hself⟩
    | false => exact ⟨df, by simpa [bsAndSet, bsSet] using hf1, by simpa using hf3⟩

/-- C34: `~`, `&`, `|`, `^` act bit by bit. -/
theorem bitset_bitwise (d e : Bytes) (h : d.length = e.length) (i : Nat) (x y : Bool)
    (hx : bsGet d i = some x) (hy : bsGet e i = some y) :
    bsGet (bsNot d) i = some (!x) ∧ bsGet (bsAnd d e) i = some (x && y) ∧
    bsGet (bsOr d e) i = some (x || y) ∧ bsGet (bsXor d e) i = some (x ^^ y) := by
  have hm : i % 8 < 8 := Nat.mod_lt _ (by decide)
  rw [bsGet_eq] at hx hy
  have hq : i / 8 < d.length := by
    by_cases h : i / 8 < d.length
    · exact h
    · rw [List.getElem?_eq_none (by omega)] at hx; cases hx
  have hq' : i / 8 < e.length := by omega
  rw [List.getElem?_eq_getElem hq] at hx
  rw [List.getElem?_eq_getElem hq'] at hy
  simp only [Option.map_some, Option.some.injEq] at hx hy
  simp only [bsGet_eq, bsNot, bsAnd, bsOr, bsXor, List.getElem?_map, List.getElem?_zipWith,
    List.getElem?_eq_getElem hq, List.getElem?_eq_getElem hq']
  simp [← hx, ← hy, hm]

/-- C34: constructing from an integer stores its binary digits. -/
theorem bitset_of_integer (N n i : Nat) (hi : i < N) :
    bsGet (bsOfNat (dataSize N) n) i = some (n.testBit i) :=
  bsOfNat_get _ _ _ (by unfold dataSize; omega)

/-- C34: converting to an integer type of `t` bits yields the number whose bits are those of the
storage, cut to `t` bits. -/
theorem bitset_to_integer (t : Nat) (d : Bytes) (i : Nat) :
    (bsToNat t d).testBit i = (decide (i < t) && (bsGet d i).getD false) := bsToNat_testBit t d i

/-- C34: integer to bitset and back is the identity when both sides are wide enough. -/
theorem bitset_integer_round_trip (N t n : Nat) (hN : n < 2 ^ N) (ht : N ≤ t) :
    bsToNat t (bsOfNat (dataSize N) n) = n := by
  apply Nat.eq_of_testBit_eq
  intro i
  rw [bitset_to_integer]
  by_cases hi : i < N
  · rw [bitset_of_integer N n i hi]; simp; omega
  · have : n.testBit i = false :=
      Nat.testBit_lt_two_pow (Nat.lt_of_lt_of_le hN (Nat.pow_le_pow_right (by decide) (by omega)))
    rw [this]
    by_cases h8 : i < 8 * dataSize N
    · rw [bsOfNat_get _ _ _ h8, this]; simp
    · rw [bsGet_eq, List.getElem?_eq_none (by rw [bsOfNat_length]; omega)]; simp

/-- C34, equality, proved for whole bytes: when `N` is a multiple of 8, `==` holds exactly when all
`N` bits agree. Missing: other `N`, where the claim is false (next theorem). -/
theorem bitset_eq_partial (N : Nat) (hN : N % 8 = 0) (hpos : 0 < N) (d e : Bytes)
    (hd : d.length = dataSize N) (he : e.length = dataSize N) :
    bsEq N d e = true ↔ ∀ i, i < N → bsGet d i = bsGet e i := by
  have hs : dataSize N * 8 = N := by unfold dataSize; omega
  have hlist : bsEq N d e = true ↔ d = e := by
    simp only [bsEq, hN, BitVec.ushiftRight_zero, Bool.and_eq_true, beq_iff_eq]
    constructor
    · rintro ⟨h1, h2⟩
      apply List.ext_getElem (by omega)
      intro i hi hi'
      by_cases hl : i < dataSize N - 1
      · have := congrArg (fun l => l[i]?) h1
        simp only [List.getElem?_take, hl, if_true, List.getElem?_eq_getElem hi,
          List.getElem?_eq_getElem hi', Option.some.injEq] at this
        exact this
      · have : i = dataSize N - 1 := by omega
        subst this
        simpa [List.getD, List.getElem?_eq_getElem hi, List.getElem?_eq_getElem hi'] using h2
    · rintro rfl; exact ⟨rfl, rfl⟩
  rw [hlist]
  constructor
  · rintro rfl _ _; rfl
  · intro h
    apply List.ext_getElem (by omega)
    intro q hq hq'
    apply BitVec.eq_of_getLsbD_eq
    intro m hm
    have := h (q * 8 + m) (by omega)
    rw [bsGet_eq, bsGet_eq, show (q * 8 + m) / 8 = q by omega,
      show (q * 8 + m) % 8 = m by omega, List.getElem?_eq_getElem hq,
      List.getElem?_eq_getElem hq'] at this
    simpa using this

/-- C34 fails for equality when `N` is not a multiple of 8: `bitset<4>(1) == bitset<4>(2)` is true
(the code compares the unused bits of the last byte instead of the used ones), and two sets with
equal bits but different padding compare different. -/
theorem bitset_eq_refuted :
    (bsEq 4 (bsOfNat (dataSize 4) 1) (bsOfNat (dataSize 4) 2) = true ∧
      bsGet (bsOfNat (dataSize 4) 1) 0 ≠ bsGet (bsOfNat (dataSize 4) 2) 0) ∧
    (bsEq 4 (bsNot (bsOfNat (dataSize 4) 0)) (bsOfNat (dataSize 4) 15) = false ∧
      ∀ i, i < 4 → bsGet (bsNot (bsOfNat (dataSize 4) 0)) i = bsGet (bsOfNat (dataSize 4) 15) i) := by
  decide

/-- C34, shifts, proved for one byte: `bitset<8>` shifted by fewer than 8 places.
Missing: several bytes, where the claim is false (next theorem). -/
theorem bitset_shift_partial (b : BitVec 8) (n : Nat) (hn : n < 8) :
    (∃ d, bsShl [b] n = some d ∧
      ∀ i, i < 8 → bsGet d i = if i < n then some false else bsGet [b] (i - n)) ∧
    (∃ d, bsShr [b] n = some d ∧
      ∀ i, i < 8 → bsGet d i = if i + n < 8 then bsGet [b] (i + n) else some false) := by
  have h0 : n / 8 = 0 := by omega
  have hm : n % 8 = n := by omega
  constructor
  · refine ⟨[b <<< n], by simp [bsShl, h0, hm, bsShlLoop], fun i hi => ?_⟩
    simp only [bsGet_eq, show i / 8 = 0 by omega, show i % 8 = i by omega,
      List.getElem?_cons_zero, Option.map_some, BitVec.getLsbD_shiftLeft, hi, decide_true,
      Bool.true_and, show (i - n) / 8 = 0 by omega, show (i - n) % 8 = i - n by omega]
    split <;> simp_all
  · refine ⟨[b >>> n], by simp [bsShr, h0, hm, bsShrLoop], fun i hi => ?_⟩
    simp only [bsGet_eq, show i / 8 = 0 by omega, show i % 8 = i by omega,
      List.getElem?_cons_zero, Option.map_some, BitVec.getLsbD_ushiftRight]
    split
    · next h =>
      rw [show (i + n) / 8 = 0 by omega, show (i + n) % 8 = i + n by omega, Nat.add_comm]
      rfl
    · next h =>
      rw [BitVec.getLsbD_of_ge _ _ (by omega)]

/-- C34 fails for shifts of several bytes: `bitset<16>(0x80) << 1` is zero instead of 0x100, and
`bitset<16>(0x100) >> 8` is zero instead of 1. -/
theorem bitset_shift_refuted :
    (∃ d, bsShl (bsOfNat (dataSize 16) 0x80) 1 = some d ∧ bsToNat 16 d = 0) ∧
    (∃ d, bsShr (bsOfNat (dataSize 16) 0x100) 8 = some d ∧ bsToNat 16 d = 0) := by
  refine ⟨⟨[0, 0], ?_⟩, ⟨[0, 0], ?_⟩⟩ <;> decide

theorem bsShlLoop_get (o i : Nat) (d : Bytes) (c : BitVec 8) (hi : i ≤ d.length) (j : Nat) :
    (bsShlLoop o i d c).length = d.length ∧
    (bsShlLoop o i d c).getD j 0#8 =
      if j + 1 < i then (d.getD j 0#8 <<< o) ||| (d.getD (j + 1) 0#8 >>> (8 - o))
      else if j + 1 = i then (d.getD j 0#8 <<< o) ||| c else d.getD j 0#8 := by
  induction i generalizing d c with
  | zero => simp [bsShlLoop]
  | succ i ih =>
    unfold bsShlLoop
    obtain ⟨h1, h2⟩ := ih (d.set i ((d.getD i 0#8 <<< o) ||| c)) (d.getD i 0#8 >>> (8 - o))
      (by simp; omega)
    refine ⟨by rw [h1]; simp, ?_⟩
    rw [h2]
    have hset : ∀ k, (d.set i ((d.getD i 0#8 <<< o) ||| c)).getD k 0#8 =
        if k = i then (d.getD i 0#8 <<< o) ||| c else d.getD k 0#8 := by
      intro k
      simp only [List.getD_eq_getElem?_getD, List.getElem?_set]
      by_cases hk : i = k
      · subst hk; have : i < d.length := by omega
        simp [this]
      · simp [hk, Ne.symm hk]
    simp only [hset]
    rcases Nat.lt_trichotomy (j + 1) i with c1 | c1 | c1
    · simp only [c1, if_true, show ¬ j = i by omega, show ¬ j + 1 = i by omega, if_false,
        show j + 1 < i + 1 by omega]
    · subst c1
      simp
    · by_cases c3 : j = i
      · subst c3
        simp only [show ¬ j + 1 < j by omega, show ¬ j + 1 = j by omega, if_false, if_true,
          Nat.lt_irrefl]
      · simp only [show ¬ j + 1 < i by omega, show ¬ j + 1 = i by omega, c3,
          show ¬ j + 1 < i + 1 by omega, show ¬ j + 1 = i + 1 by omega, if_false]

/-- C34, what `<<=` computes on any number of bytes: no byte moves, and the bits that leave a byte go to
the byte below instead of the byte above. -/
theorem bitset_shl_characterised (d : Bytes) (n : Nat) (h : n / 8 ≤ d.length) :
    ∃ r, bsShl d n = some r ∧ r.length = d.length ∧ ∀ j, r.getD j 0#8 =
      if j < n / 8 then 0#8
      else if j + 1 < d.length - n / 8 then
        (d.getD j 0#8 <<< (n % 8)) ||| (d.getD (j + 1) 0#8 >>> (8 - n % 8))
      else if j + 1 = d.length - n / 8 then d.getD j 0#8 <<< (n % 8) else d.getD j 0#8 := by
  unfold bsShl
  simp only [show ¬ n / 8 > d.length by omega, if_false]
  refine ⟨_, rfl, ?_, ?_⟩
  · have := (bsShlLoop_get (n % 8) (d.length - n / 8) d 0#8 (by omega) 0).1
    simp [this]; omega
  · intro j
    have h2 := (bsShlLoop_get (n % 8) (d.length - n / 8) d 0#8 (by omega) j).2
    simp only [List.getD_eq_getElem?_getD, List.getElem?_append, List.length_replicate] at h2 ⊢
    by_cases hj : j < n / 8
    · simp [hj]
    · rw [if_neg hj, if_neg hj, List.getElem?_drop, show n / 8 + (j - n / 8) = j by omega, h2]
      simp

theorem bsShrLoop_get (o : Nat) (d : Bytes) (c : BitVec 8) (j : Nat) :
    (bsShrLoop o d c).length = d.length ∧
    (j < d.length → (bsShrLoop o d c).getD j 0#8 =
      (d.getD j 0#8 >>> o) ||| (if j = 0 then c else d.getD (j - 1) 0#8 <<< (8 - o))) := by
  induction d generalizing c j with
  | nil => simp [bsShrLoop]
  | cons x d ih =>
    unfold bsShrLoop
    refine ⟨by simp [(ih (x <<< (8 - o)) 0).1], ?_⟩
    intro hj
    cases j with
    | zero => simp
    | succ j =>
      have := (ih (x <<< (8 - o)) j).2 (by simpa using hj)
      simp only [List.getD_cons_succ, this]
      cases j <;> simp

/-- C34, what `>>=` computes on any number of bytes: no byte moves, the bits that leave a byte go to the byte
above, and the topmost `n/8` bytes are cleared. -/
theorem bitset_shr_characterised (d : Bytes) (n : Nat) (h : n / 8 ≤ d.length) :
    ∃ r, bsShr d n = some r ∧ r.length = d.length ∧ ∀ j, j < d.length → r.getD j 0#8 =
      if d.length - n / 8 ≤ j then 0#8
      else if j < n / 8 then d.getD j 0#8
      else (d.getD j 0#8 >>> (n % 8)) |||
        (if j = n / 8 then 0#8 else d.getD (j - 1) 0#8 <<< (8 - n % 8)) := by
  unfold bsShr
  simp only [show ¬ n / 8 > d.length by omega, if_false]
  have hl := (bsShrLoop_get (n % 8) (d.drop (n / 8)) 0#8 0).1
  have hlen : (d.take (n / 8) ++ bsShrLoop (n % 8) (d.drop (n / 8)) 0#8).length = d.length := by
    simp [hl]; omega
  refine ⟨_, rfl, ?_, ?_⟩
  · simp [hl]; omega
  · intro j hj
    have h2 := (bsShrLoop_get (n % 8) (d.drop (n / 8)) 0#8 (j - n / 8)).2
    rw [hlen]
    simp only [List.getD_eq_getElem?_getD, List.getElem?_append, List.length_take, hlen] at h2 ⊢
    by_cases h3 : d.length - n / 8 ≤ j
    · rw [if_neg (by omega), if_pos h3, List.getElem?_replicate]
      split <;> rfl
    · rw [if_pos (by omega), if_neg h3, List.getElem?_take, if_pos (by omega), List.getElem?_append]
      by_cases h4 : j < n / 8
      · rw [if_pos h4, if_pos (by simp; omega), List.getElem?_take, if_pos h4]
      · have := h2 (by simp; omega)
        rw [if_neg h4, if_neg (by simp; omega)]
        rw [show (d.take (n / 8)).length = n / 8 by simp; omega, this]
        simp only [List.getElem?_drop]
        rw [show n / 8 + (j - n / 8) = j by omega]
        by_cases h5 : j = n / 8
        · rw [if_pos h5, if_pos (by omega)]
        · rw [if_neg h5, if_neg (by omega), show n / 8 + (j - n / 8 - 1) = j - 1 by omega]

/-- The `none` of both shifts: more than the storage. -/
theorem bitset_shift_out_of_bounds (d : Bytes) (n : Nat) :
    (bsShl d n = none ↔ d.length < n / 8) ∧ (bsShr d n = none ↔ d.length < n / 8) := by
  unfold bsShl bsShr
  constructor <;> by_cases h : n / 8 > d.length <;> simp [h] <;> omega

-- non-trivial instances of the hypotheses
example : bsGet (bsOfNat (dataSize 12) 0b101000000001) 11 = some true := by decide
example : (300 : Nat) < 2 ^ 12 ∧ bsToNat 16 (bsOfNat (dataSize 12) 300) = 300 := by decide

end ELC.Bits
