import Verif.Random.Lemmas
import Mathlib.Tactic.IntervalCases
import Mathlib.Data.Nat.Count
import Mathlib.Data.Int.CardIntervalMod
/-! Random numbers: C48, C49. -/
namespace ELC.Random

open Spec (times FullPeriod InRange)
open ELC.Bits (bitsOf getBitnum)
open Arith.Spec (Returns Root)

/-! ### C49 -/

/-- C49: the multiplier computed at compile time is 44973896861, whatever the rounding of the square roots. -/
theorem multiplier_value {root : Nat → Nat} (hr : Root root) {s : Nat} (h1 : 212060 < s) (h2 : s ≤ 44973896860) :
    Returns (fun fuel => multiplier root s fuel modulus) 44973896861 := by
  obtain ⟨p1, n1, F1, r1⟩ := Arith.prime_above_partial hr (a := 4) (by decide) (Or.inl (by decide))
  obtain ⟨p2, n2, F2, r2⟩ := Arith.prime_above_partial hr (a := 20) (by decide) (Or.inl (by decide))
  obtain ⟨p3, n3, F3, r3⟩ := Arith.prime_above_partial hr (a := 460) (by decide) (Or.inl (by decide))
  obtain ⟨p4, n4, F4, r4⟩ := Arith.prime_above_partial hr (a := 212060) (by decide) (Or.inl (by decide))
  have e1 : p1 = 5 := by
    have := n1.2.2 5 (by norm_num) (by decide); have := n1.2.1; omega
  have e2 : p2 = 23 := by
    have h3 := n2.2.2 23 (by norm_num) (by decide); have h4 := n2.2.1; have h5 := n2.1
    interval_cases p2 <;> first | rfl | (exfalso; revert h5; norm_num)
  have e3 : p3 = 461 := by
    have := n3.2.2 461 (by norm_num) (by decide); have := n3.2.1; omega
  have e4 : p4 = 212081 := by
    have h3 := n4.2.2 212081 (by norm_num) (by decide); have h4 := n4.2.1; have h5 := n4.1
    interval_cases p4 <;> first | rfl | (exfalso; revert h5; norm_num)
  subst e1; subst e2; subst e3; subst e4
  refine ⟨F1 + F2 + F3 + F4 + 10, fun fuel hf => ?_⟩
  obtain ⟨n, rfl⟩ : ∃ n, fuel = n + 10 := ⟨fuel - 10, by omega⟩
  have q1 : Arith.primeAbove root (n + 9) 4 = some 5 := r1 _ (by omega)
  have q2 : Arith.primeAbove root (n + 8) 20 = some 23 := r2 _ (by omega)
  have q3 : Arith.primeAbove root (n + 7) 460 = some 461 := r3 _ (by omega)
  have q4 : Arith.primeAbove root (n + 6) 212060 = some 212081 := r4 _ (by omega)
  have g : growLoop root s (n + 10) 4 = some 44973896860 := by
    rw [growLoop, q1, Option.bind_some, if_pos (by omega), growLoop, q2, Option.bind_some, if_pos (by omega), growLoop, q3,
      Option.bind_some, if_pos (by omega), growLoop, q4, Option.bind_some, if_neg (by omega)]
  have f : fourLoop (if modulus = 0 then 2 ^ 64 - 4 else modulus) (n + 10) 2 = some 4 := by
    rw [if_pos (by decide)]
    rw [fourLoop, if_pos (by decide), fourLoop, if_neg (by decide)]
  have t : primeFactorLoop root (n + 10) 2 2 1 = some 2 := by
    rw [primeFactorLoop, if_neg (by decide), if_pos (by decide), primeFactorLoop, if_pos (by decide)]; rfl
  show multiplier root s (n + 10) modulus = _
  unfold multiplier
  rw [t, Option.bind_some, f, Option.bind_some, g]
  rfl

/-- The square root of 2^64-4 satisfies the hypothesis. -/
example : 212060 < 2 ^ 32 ∧ 2 ^ 32 ≤ 44973896860 := by decide

/-- C49: with any multiplier the computation can yield, every seed is on a cycle through all 2^64 seeds. -/
theorem generator_full_period {root : Nat → Nat} {s fuel a x : Nat} (h : multiplier root s fuel modulus = some a) (hx : x < 2 ^ 64) :
    FullPeriod (2 ^ 64) (lcg 64 a increment) x :=
  lcg_full (multiplier_mod4 (by decide) h) (by decide) hx

/-- The step used while sowing has the full period too. -/
theorem sow_full_period {x : Nat} (hx : x < 2 ^ 64) : FullPeriod (2 ^ 64) sow x :=
  lcg_full (k := 64) (a := 13) (c := 7) (by decide) (by decide) hx

/-- A multiplier without the factor 4 has not: the hypothesis on it matters. -/
example : ¬ FullPeriod (2 ^ 3) (lcg 3 3 1) 0 := by
  intro h
  have := (h.2 4).1 (by decide)
  revert this; decide

theorem draws_some (a : Nat) : ∀ (ks : List Nat) (st : State), (∀ k ∈ ks, k ≤ 2) → st.entropy.length = 2048 →
    ∃ out st', draws a ks st = some (out, st') ∧ st'.seed = times (lcg 64 a increment) ks.length st.seed ∧
      st'.entropy.length = 2048 := by
  intro ks
  induction ks with
  | nil => intro st _ h; exact ⟨[], st, rfl, rfl, h⟩
  | cons k ks ih =>
    intro st hk h
    obtain ⟨r, st1, e1, e2, e3, _⟩ := genBase_some a (hk k (by simp)) h
    obtain ⟨out, st2, f1, f2, f3⟩ := ih st1 (fun j hj => hk j (by simp [hj])) e2
    refine ⟨r :: out, st2, ?_, ?_, f3⟩
    · simp only [draws, e1, Option.bind_some, f1, Option.map_some]
    · rw [f2, e3]; rfl

theorem writeWord_length {d d' : List (BitVec 8)} {n i v : Nat} (h : writeWord d n i v = some d') : d'.length = d.length := by
  unfold writeWord at h
  split at h
  · injection h with h; subst h
    simp only [List.length_append, List.length_take, List.length_drop, wordBytes_length]
    omega
  · cases h

theorem setLoop_some : ∀ n (st : State), n ≤ 256 → st.seed < 2 ^ 64 → st.entropy.length = 2048 → ∃ st', setLoop n st = some st' ∧
    st'.entropy.length = 2048 ∧ st'.seed < 2 ^ 64 := by
  intro n
  induction n with
  | zero => intro st _ hs h; exact ⟨st, rfl, h, hs⟩
  | succ n ih =>
    intro st hn hs h
    obtain ⟨d', e1, e2⟩ := writeWord_some (d := st.entropy) (n := 8) (i := n) (by omega) (st.seed ^^^ (st.seed >>> 32))
    obtain ⟨st', f1, f2, f3⟩ := ih ⟨sow st.seed, d'⟩ (by omega) (Nat.mod_lt _ (by decide)) (by simpa [h] using e2)
    exact ⟨st', by rw [setLoop, e1]; exact f1, f2, f3⟩

/-- C49: from any seed set, draws of any sizes never leave the entropy table, and the seed visits every one of the 2^64 values
before it comes back: it has value `y` after some number of draws below 2^64, and the first value again exactly after
multiples of 2^64 draws. -/
theorem draws_full_period {root : Nat → Nat} {s fuel a seed : Nat} (h : multiplier root s fuel modulus = some a) (hs : seed < 2 ^ 64) :
    ∃ st, setSeed seed = some st ∧
      (∀ ks : List Nat, (∀ k ∈ ks, k ≤ 2) → ∃ out st', draws a ks st = some (out, st')) ∧
      (∀ y, y < 2 ^ 64 → ∃ n, n < 2 ^ 64 ∧ ∀ ks : List Nat, (∀ k ∈ ks, k ≤ 2) → ks.length = n →
        ∃ out st', draws a ks st = some (out, st') ∧ st'.seed = y) ∧
      (∀ ks : List Nat, (∀ k ∈ ks, k ≤ 2) → ∀ out st', draws a ks st = some (out, st') →
        (st'.seed = st.seed ↔ 2 ^ 64 ∣ ks.length)) := by
  obtain ⟨st, e1, e2, e3⟩ := setLoop_some 256 ⟨seed, List.replicate 2048 0⟩ (Nat.le_refl _) hs List.length_replicate
  obtain ⟨p1, p2⟩ := generator_full_period h e3
  refine ⟨st, e1, ?_, ?_, ?_⟩
  · intro ks hk
    obtain ⟨out, st', q, _⟩ := draws_some a ks st hk e2
    exact ⟨out, st', q⟩
  · intro y hy
    obtain ⟨n, hn, hy'⟩ := p1 y hy
    refine ⟨n, hn, fun ks hk hl => ?_⟩
    obtain ⟨out, st', q1, q2, _⟩ := draws_some a ks st hk e2
    exact ⟨out, st', q1, by rw [q2, hl, hy']⟩
  · intro ks hk out st' hd
    obtain ⟨out2, st2, q1, q2, _⟩ := draws_some a ks st hk e2
    rw [hd] at q1
    injection q1 with q1; injection q1 with _ q1; subst q1
    rw [q2]; exact p2 _

/-- Draws of every size are below the bound of the type, and a 64-bit draw takes two steps. -/
theorem gen_in_range (a : Nat) {k : Nat} (hk : k ≤ 3) {st : State} (h : st.entropy.length = 2048) :
    ∃ r st', gen a k st = some (r, st') ∧ r < 2 ^ bitsOf k ∧
      st'.seed = times (lcg 64 a increment) (if k = 3 then 2 else 1) st.seed := by
  unfold gen
  by_cases h2 : k ≤ 2
  · rw [if_pos h2, if_neg (by omega)]
    obtain ⟨r, st1, e1, e2, e3, e4⟩ := genBase_some a h2 h
    exact ⟨r, st1, e1, e4, e3⟩
  · have : k = 3 := by omega
    subst this
    rw [if_neg h2, if_pos rfl]
    obtain ⟨r, st1, e1, e2, e3, e4⟩ := genBase_some a (k := 2) (by decide) h
    obtain ⟨r', st2, f1, f2, f3, f4⟩ := genBase_some a (k := 2) (by decide) e2
    refine ⟨(r <<< 32) ||| r', st2, by rw [e1, Option.bind_some, f1]; rfl, ?_, ?_⟩
    · apply Nat.or_lt_two_pow
      · rw [Nat.shiftLeft_eq]
        have : bitsOf 3 = bitsOf 2 + 32 := by decide
        rw [this, Nat.pow_add]
        exact Nat.mul_lt_mul_of_pos_right e4 (by decide)
      · exact Nat.lt_of_lt_of_le f4 (Nat.pow_le_pow_right (by decide) (by decide))
    · rw [f3, e3]; rfl

/-! ### C48 -/

theorem drawLoop_accept {draw : Nat → Option (Nat × Nat)} {accept : Nat → Bool} : ∀ fuel pos {d},
    drawLoop draw accept fuel pos = some (some d) → accept d = true ∧ ∃ p q, draw p = some (d, q) := by
  intro fuel
  induction fuel with
  | zero => intro pos d h; cases h
  | succ fuel ih =>
    intro pos d h
    rw [drawLoop, Option.bind_eq_some_iff] at h
    obtain ⟨r, h1, h⟩ := h
    split at h
    · next ha => injection h with h; injection h with h; subst h; exact ⟨ha, pos, r.2, h1⟩
    · exact ih _ h

theorem bitsOf_ge (k : Nat) : 8 ≤ bitsOf k := by
  unfold bitsOf; have := Nat.two_pow_pos k; omega

/-- Within the type, the difference is the true one, unless it is undefined. -/
theorem mkDiff_eq {T : IntT} {lo hi : Int} (h1 : T.min ≤ lo) (h2 : hi ≤ T.max) (h3 : lo ≤ hi) :
    mkDiff T lo hi = (if T.signed ∧ 32 ≤ T.width ∧ T.max < hi - lo then none else some (hi - lo).toNat) ∧
      (hi - lo).toNat < 2 ^ T.width := by
  have h8 := bitsOf_ge T.k
  have hp : (2 : Int) ^ T.width = 2 * 2 ^ (T.width - 1) := by
    rw [← Int.pow_succ']; congr 1; unfold IntT.width; omega
  have hlt : hi - lo < 2 ^ T.width := by
    unfold IntT.min at h1
    unfold IntT.max at h2
    split at h1 <;> split at h2 <;> first | omega | contradiction
  constructor
  · unfold mkDiff
    rw [Int.emod_eq_of_lt (by omega) hlt]
  · have : ((hi - lo).toNat : Int) < ((2 ^ T.width : Nat) : Int) := by
      rw [Int.toNat_of_nonneg (by omega)]; push_cast; exact hlt
    exact_mod_cast this

theorem wrap_eq {T : IntT} {v : Int} (h1 : T.min ≤ v) (h2 : v ≤ T.max) : T.wrap v = v := by
  have h8 := bitsOf_ge T.k
  have hp : (2 : Int) ^ T.width = 2 * 2 ^ (T.width - 1) := by
    rw [← Int.pow_succ']; congr 1; unfold IntT.width; omega
  have hpos : (0 : Int) < 2 ^ (T.width - 1) := Int.pow_pos (by decide)
  unfold IntT.min at h1
  unfold IntT.max at h2
  unfold IntT.wrap
  generalize (2 : Int) ^ (T.width - 1) = P at *
  generalize (2 : Int) ^ T.width = Q at *
  subst hp
  cases hs : T.signed <;> simp only [hs, Bool.false_eq_true, if_false, if_true, false_and, true_and] at h1 h2 ⊢
  · rw [Int.emod_eq_of_lt (by omega) (by omega)]
  · by_cases hv : 0 ≤ v
    · rw [Int.emod_eq_of_lt (by omega) (by omega), if_neg (by omega)]
    · have : v % (2 * P) = v + 2 * P := by
        rw [← Int.add_emod_right, Int.emod_eq_of_lt (by omega) (by omega)]
      rw [this, if_pos (by omega)]; omega

/-- The bounds in order. -/
theorem ordered (a b : Int) : (if a ≤ b then a else b) = min a b ∧ (if a ≤ b then b else a) = max a b := by
  constructor <;> split <;> omega

/-- C48: whatever the generator yields, a value returned by `between(a,b)` lies in the range asked for: both ends included,
or the upper excluded. -/
theorem between_in_range {T : IntT} {g : Nat → Nat} {excl : Bool} {fuel : Nat} {a b v : Int}
    (ha : T.min ≤ a ∧ a ≤ T.max) (hb : T.min ≤ b ∧ b ≤ T.max) (h : between T g excl fuel a b = some (some v)) :
    InRange excl a b v := by
  unfold between at h
  obtain ⟨o1, o2⟩ := ordered a b
  rw [o1, o2] at h
  obtain ⟨e1, e2⟩ := mkDiff_eq (T := T) (lo := min a b) (hi := max a b) (by omega) (by omega) (by omega)
  rw [Option.bind_eq_some_iff] at h
  obtain ⟨diff, h1, h⟩ := h
  rw [e1] at h1
  split at h1
  · cases h1
  · injection h1 with h1; subst h1
    rw [Option.map_eq_some_iff] at h
    obtain ⟨r, h2, h⟩ := h
    rw [Option.map_eq_some_iff] at h
    obtain ⟨d, rfl, rfl⟩ := h
    obtain ⟨hacc, _⟩ := drawLoop_accept _ _ h2
    unfold InRange
    cases excl
    · simp only [Bool.false_eq_true, if_false, decide_eq_true_eq] at hacc ⊢
      rw [wrap_eq (by omega) (by omega)]; omega
    · simp only [if_true, decide_eq_true_eq] at hacc ⊢
      rw [wrap_eq (by omega) (by omega)]; omega

/-- The case in which the range is too wide for the code. -/
def TooWide (T : IntT) (a b : Int) : Prop := 32 ≤ T.width ∧ 2 ^ (T.width - 1) ≤ max a b - min a b

theorem bitnum_lt {T : IntT} {d : Nat} (hd : d < 2 ^ T.width) : (d < 2 ^ (T.width - 1) ↔ getBitnum T.k d < T.width) ∧
    getBitnum T.k d ≤ T.width ∧ d < 2 ^ getBitnum T.k d := by
  obtain ⟨h1, h2, h3⟩ := Bits.get_bitnum_correct T.k d hd
  have h8 := bitsOf_ge T.k
  have hw : 8 ≤ T.width := h8
  refine ⟨⟨fun h => ?_, fun h => ?_⟩, ?_, h1⟩
  · by_contra hc
    have hne : d ≠ 0 := by intro h0; rw [h2 h0] at hc; omega
    have := Nat.pow_le_pow_right (n := 2) (by decide) (show T.width - 1 ≤ getBitnum T.k d - 1 by omega)
    have := h3 hne
    omega
  · have := Nat.pow_le_pow_right (n := 2) (by decide) (show getBitnum T.k d ≤ T.width - 1 by omega)
    omega
  · by_contra hc
    have hne : d ≠ 0 := by intro h0; rw [h2 h0] at hc; omega
    have := Nat.pow_le_pow_right (n := 2) (by decide) (show T.width ≤ getBitnum T.k d - 1 by omega)
    have := h3 hne
    omega

theorem drawLoop_defined {draw : Nat → Option (Nat × Nat)} {accept : Nat → Bool} (h : ∀ p, ∃ r, draw p = some r) :
    ∀ fuel pos, ∃ r, drawLoop draw accept fuel pos = some r := by
  intro fuel
  induction fuel with
  | zero => intro pos; exact ⟨_, rfl⟩
  | succ fuel ih =>
    intro pos
    obtain ⟨r, hr⟩ := h pos
    rw [drawLoop, hr, Option.bind_some]
    split
    · exact ⟨_, rfl⟩
    · exact ih _

theorem drawLoop_returns {draw : Nat → Option (Nat × Nat)} {accept : Nat → Bool} {D : Nat → Nat}
    (h : ∀ p, draw p = some (D p, p + 1)) : ∀ n pos, accept (D (pos + n)) = true →
    ∃ d, ∀ fuel, n < fuel → drawLoop draw accept fuel pos = some (some d) := by
  intro n
  induction n with
  | zero =>
    intro pos hacc
    refine ⟨D pos, fun fuel hf => ?_⟩
    obtain ⟨f, rfl⟩ : ∃ f, fuel = f + 1 := ⟨fuel - 1, by omega⟩
    rw [drawLoop, h, Option.bind_some, if_pos (by simpa using hacc)]
  | succ n ih =>
    intro pos hacc
    by_cases ha : accept (D pos) = true
    · refine ⟨D pos, fun fuel hf => ?_⟩
      obtain ⟨f, rfl⟩ : ∃ f, fuel = f + 1 := ⟨fuel - 1, by omega⟩
      rw [drawLoop, h, Option.bind_some, if_pos ha]
    · obtain ⟨d, hd⟩ := ih (pos + 1) (by rw [show pos + 1 + n = pos + (n + 1) by omega]; exact hacc)
      refine ⟨d, fun fuel hf => ?_⟩
      obtain ⟨f, rfl⟩ : ∃ f, fuel = f + 1 := ⟨fuel - 1, by omega⟩
      rw [drawLoop, h, Option.bind_some, if_neg ha]
      exact hd f (by omega)

theorem and_mask (g b : Nat) : g &&& (2 ^ b - 1) = g % 2 ^ b := Nat.and_two_pow_sub_one_eq_mod g b

/-- What `between` does when it is defined. -/
theorem between_unfold {T : IntT} (g : Nat → Nat) (excl : Bool) (fuel : Nat) {a b : Int}
    (ha : T.min ≤ a ∧ a ≤ T.max) (hb : T.min ≤ b ∧ b ≤ T.max) (hw : ¬ TooWide T a b) :
    between T g excl fuel a b = (drawLoop (fun p => some (g p % 2 ^ getBitnum T.k (max a b - min a b).toNat, p + 1))
      (fun d => if excl then d < (max a b - min a b).toNat else d ≤ (max a b - min a b).toNat) fuel 0).map fun r =>
        r.map fun (d : Nat) => T.wrap (min a b + (d : Int)) := by
  unfold between
  obtain ⟨o1, o2⟩ := ordered a b
  rw [o1, o2]
  obtain ⟨e1, e2⟩ := mkDiff_eq (T := T) (lo := min a b) (hi := max a b) (by omega) (by omega) (by omega)
  obtain ⟨b1, b2, b3⟩ := bitnum_lt e2
  have hP : ((2 ^ (T.width - 1) : Nat) : Int) = 2 ^ (T.width - 1) := by push_cast; rfl
  have hsmall : 32 ≤ T.width → max a b - min a b < 2 ^ (T.width - 1) := by
    intro h32
    by_contra hc
    exact hw ⟨h32, by omega⟩
  rw [e1, if_neg, Option.bind_some]
  · have hm : ∀ x, masked T (getBitnum T.k (max a b - min a b).toNat) x = some (x % 2 ^ getBitnum T.k (max a b - min a b).toNat) := by
      intro x
      unfold masked
      rw [if_pos, and_mask]
      by_cases h32 : 32 ≤ T.width
      · have := hsmall h32
        have : (max a b - min a b).toNat < 2 ^ (T.width - 1) := by omega
        have := b1.1 this
        omega
      · omega
    simp only [hm, Option.map_some]
  · rintro ⟨hs, h32, hm⟩
    have := hsmall h32
    unfold IntT.max at hm
    rw [if_pos hs] at hm
    omega

/-- C48: unless the range is too wide, `between` is defined; it returns as soon as the generator yields all words (as a
full-period one does), except for `exclusive` with equal bounds. -/
theorem between_returns_partial {T : IntT} {g : Nat → Nat} {excl : Bool} {a b : Int}
    (ha : T.min ≤ a ∧ a ≤ T.max) (hb : T.min ≤ b ∧ b ≤ T.max) (hw : ¬ TooWide T a b) :
    (∀ fuel, ∃ r, between T g excl fuel a b = some r) ∧
    ((∀ x, x < 2 ^ T.width → ∃ n, g n = x) → ¬ (excl = true ∧ a = b) →
      ∃ F v, ∀ fuel, F ≤ fuel → between T g excl fuel a b = some (some v)) := by
  constructor
  · intro fuel
    rw [between_unfold g excl fuel ha hb hw]
    obtain ⟨r, hr⟩ := drawLoop_defined (draw := fun p => some (g p % 2 ^ getBitnum T.k (max a b - min a b).toNat, p + 1))
      (accept := fun d => if excl then d < (max a b - min a b).toNat else d ≤ (max a b - min a b).toNat)
      (fun p => ⟨_, rfl⟩) fuel 0
    exact ⟨_, by rw [hr]; rfl⟩
  · intro hall hne
    obtain ⟨n, hn⟩ := hall 0 (Nat.two_pow_pos _)
    obtain ⟨d, hd⟩ := drawLoop_returns (draw := fun p => some (g p % 2 ^ getBitnum T.k (max a b - min a b).toNat, p + 1))
      (accept := fun d => if excl then d < (max a b - min a b).toNat else d ≤ (max a b - min a b).toNat)
      (D := fun p => g p % 2 ^ getBitnum T.k (max a b - min a b).toNat) (fun p => rfl) n 0 (by
        rw [Nat.zero_add, hn, Nat.zero_mod]
        cases excl
        · simp
        · have : a ≠ b := fun h => hne ⟨rfl, h⟩
          simp only [if_true, decide_eq_true_eq]; omega)
    refine ⟨n + 1, T.wrap (min a b + d), fun fuel hf => ?_⟩
    rw [between_unfold g excl fuel ha hb hw, hd fuel (by omega)]
    rfl

/-- C48: unless the range is too wide, every value of it can be returned. -/
theorem between_onto_partial {T : IntT} {excl : Bool} {a b v : Int}
    (ha : T.min ≤ a ∧ a ≤ T.max) (hb : T.min ≤ b ∧ b ≤ T.max) (hw : ¬ TooWide T a b) (hv : InRange excl a b v) :
    ∃ g : Nat → Nat, (∀ n, g n < 2 ^ T.width) ∧ ∀ fuel, 0 < fuel → between T g excl fuel a b = some (some v) := by
  obtain ⟨h1, h2⟩ := hv
  have hvb : v ≤ max a b := by cases excl <;> simp at h2 <;> omega
  obtain ⟨e1, e2⟩ := mkDiff_eq (T := T) (lo := min a b) (hi := max a b) (by omega) (by omega) (by omega)
  obtain ⟨b1, b2, b3⟩ := bitnum_lt e2
  refine ⟨fun _ => (v - min a b).toNat, fun _ => by dsimp only; omega, fun fuel hf => ?_⟩
  rw [between_unfold _ excl fuel ha hb hw]
  obtain ⟨f, rfl⟩ : ∃ f, fuel = f + 1 := ⟨fuel - 1, by omega⟩
  rw [drawLoop, Option.bind_some]
  dsimp only
  rw [Nat.mod_eq_of_lt (by omega), if_pos]
  · simp only [Option.map_some]
    rw [Int.toNat_of_nonneg (by omega), wrap_eq (by omega) (by omega)]
    congr 2; omega
  · cases excl
    · simp only [Bool.false_eq_true, if_false, decide_eq_true_eq]; omega
    · simp only [if_true, decide_eq_true_eq] at h2 ⊢; omega

/-- C48: the accepted draws are unbiased: each offset below `2^bitnum` comes from equally many words of the generator. -/
theorem between_uniform {w bitnum d : Nat} (hb : bitnum ≤ w) (hd : d < 2 ^ bitnum) :
    ((Finset.range (2 ^ w)).filter fun g => g &&& (2 ^ bitnum - 1) = d).card = 2 ^ (w - bitnum) := by
  have h1 : ((Finset.range (2 ^ w)).filter fun g => g &&& (2 ^ bitnum - 1) = d).card =
      (2 ^ w).count (· ≡ d [MOD 2 ^ bitnum]) := by
    rw [Nat.count_eq_card_filter_range]
    congr 1
    apply Finset.filter_congr
    intro g _
    rw [and_mask]
    constructor
    · intro h; show g % _ = d % _; rw [h, Nat.mod_eq_of_lt hd]
    · intro h; have h' : g % _ = d % _ := h; rw [h', Nat.mod_eq_of_lt hd]
  rw [h1, Nat.count_modEq_card _ (Nat.two_pow_pos _)]
  have hdiv : 2 ^ w = 2 ^ (w - bitnum) * 2 ^ bitnum := by rw [← Nat.pow_add]; congr 1; omega
  have h2 : 2 ^ w % 2 ^ bitnum = 0 := by rw [hdiv]; simp
  have h3 : 2 ^ w / 2 ^ bitnum = 2 ^ (w - bitnum) := by rw [hdiv, Nat.mul_div_cancel _ (Nat.two_pow_pos _)]
  rw [h2, h3]
  simp

/-- C48 is false for wide ranges: for types of 32 bits and more, when the bounds are at least half of the range of the type
apart, the first draw is already undefined (a signed overflow or a shift by the full width). -/
theorem between_wide_refuted {T : IntT} {g : Nat → Nat} {excl : Bool} {fuel : Nat} {a b : Int}
    (ha : T.min ≤ a ∧ a ≤ T.max) (hb : T.min ≤ b ∧ b ≤ T.max) (hw : TooWide T a b) (hf : 0 < fuel) :
    between T g excl fuel a b = none := by
  obtain ⟨h32, hd⟩ := hw
  unfold between
  obtain ⟨o1, o2⟩ := ordered a b
  rw [o1, o2]
  obtain ⟨e1, e2⟩ := mkDiff_eq (T := T) (lo := min a b) (hi := max a b) (by omega) (by omega) (by omega)
  obtain ⟨b1, b2, b3⟩ := bitnum_lt e2
  have hP : ((2 ^ (T.width - 1) : Nat) : Int) = 2 ^ (T.width - 1) := by push_cast; rfl
  rw [e1]
  split
  · rfl
  · rw [Option.bind_some]
    obtain ⟨f, rfl⟩ : ∃ f, fuel = f + 1 := ⟨fuel - 1, by omega⟩
    have hb : ¬ getBitnum T.k (max a b - min a b).toNat < T.width := by
      intro hlt
      have := b1.2 hlt
      omega
    rw [drawLoop]
    unfold masked
    rw [if_neg (by omega)]
    rfl

/-- C48 is false for `exclusive` with equal bounds: it never returns. -/
theorem between_empty_refuted {T : IntT} {g : Nat → Nat} {a : Int} (ha : T.min ≤ a ∧ a ≤ T.max) (fuel : Nat) :
    between T g true fuel a a = some none := by
  have hw : ¬ TooWide T a a := by
    rintro ⟨_, h⟩
    have : (0 : Int) < 2 ^ (T.width - 1) := Int.pow_pos (by decide)
    omega
  rw [between_unfold g true fuel ha ha hw]
  have : (max a a - min a a).toNat = 0 := by omega
  rw [this]
  have key : ∀ fuel pos, drawLoop (fun p => some (g p % 2 ^ getBitnum T.k 0, p + 1))
      (fun d => if true = true then decide (d < 0) else decide (d ≤ 0)) fuel pos = some none := by
    intro fuel
    induction fuel with
    | zero => intro pos; rfl
    | succ fuel ih => intro pos; rw [drawLoop, Option.bind_some, if_neg (by simp)]; exact ih _
  rw [key]
  rfl

/-- The hypotheses are met: an `int` between -3 and 10, and `uniform_in_range` of `unsigned`, which is too wide. -/
example : between ⟨2, true⟩ (fun n => if n = 0 then 15 else 9) false 2 (-3) 10 = some (some 6) := by decide +kernel
example : TooWide ⟨2, false⟩ (IntT.min ⟨2, false⟩) (IntT.max ⟨2, false⟩) := by
  constructor <;> decide
example : ¬ TooWide ⟨2, true⟩ (-3) 10 := by
  rintro ⟨_, h⟩; revert h; decide

/-! ### big integers -/

theorem bigDigits_value {w : Nat} (hw : 0 < w) {g : Nat → Nat} (hg : ∀ n, g n < 2 ^ w) : ∀ bitnum pos {r},
    bigDigits w g bitnum pos = some r → wordsValue w r.1 < 2 ^ bitnum := by
  intro bitnum
  induction bitnum using Nat.strong_induction_on with
  | _ bitnum ih =>
    intro pos r h
    rw [bigDigits] at h
    split at h
    · next hc =>
      rw [Option.map_eq_some_iff] at h
      obtain ⟨s, h1, rfl⟩ := h
      have := ih (bitnum - w) (by omega) _ h1
      dsimp only
      rw [wordsValue]
      have hp : 2 ^ bitnum = 2 ^ w * 2 ^ (bitnum - w) := by rw [← Nat.pow_add]; congr 1; omega
      have hgp := hg pos
      rw [hp]
      calc g pos + 2 ^ w * wordsValue w s.1 < 2 ^ w + 2 ^ w * wordsValue w s.1 := by omega
        _ = 2 ^ w * (wordsValue w s.1 + 1) := by ring
        _ ≤ 2 ^ w * 2 ^ (bitnum - w) := Nat.mul_le_mul_left _ this
    · split at h
      · injection h with h; subst h
        simp only [wordsValue, Nat.mul_zero, Nat.add_zero]
        rw [and_mask]
        exact Nat.mod_lt _ (Nat.two_pow_pos _)
      · cases h

theorem bigDigits_defined {w : Nat} (hw : 0 < w) (g : Nat → Nat) : ∀ bitnum pos,
    (∃ r, bigDigits w g bitnum pos = some r) ↔ ¬ (0 < bitnum ∧ w ∣ bitnum) := by
  intro bitnum
  induction bitnum using Nat.strong_induction_on with
  | _ bitnum ih =>
    intro pos
    rw [bigDigits]
    split
    · next hc =>
      have := ih (bitnum - w) (by omega) (pos + 1)
      have hdv : w ∣ bitnum - w ↔ w ∣ bitnum := by
        constructor
        · intro h; have := Dvd.dvd.add h (Nat.dvd_refl w); rwa [Nat.sub_add_cancel (by omega)] at this
        · intro h; exact Nat.dvd_sub h (Nat.dvd_refl w)
      rw [hdv] at this
      constructor
      · rintro ⟨r, hr⟩ ⟨h1, h2⟩
        rw [Option.map_eq_some_iff] at hr
        obtain ⟨s, hs, _⟩ := hr
        exact this.1 ⟨s, hs⟩ ⟨by omega, h2⟩
      · intro h
        obtain ⟨s, hs⟩ := this.2 (by rintro ⟨h1, h2⟩; exact h ⟨by omega, h2⟩)
        exact ⟨_, by rw [hs]; rfl⟩
    · split
      · constructor
        · rintro _ ⟨h1, h2⟩; exact absurd (Nat.le_of_dvd h1 h2) (by omega)
        · intro _; exact ⟨_, rfl⟩
      · next h1 h2 =>
        have : bitnum = w := by omega
        constructor
        · rintro ⟨r, hr⟩; cases hr
        · intro h; exfalso; exact h ⟨by omega, by rw [this]⟩

theorem bigDigits_onto {w : Nat} (hw : 0 < w) : ∀ bitnum pos (v : Nat), v < 2 ^ bitnum → ¬ (0 < bitnum ∧ w ∣ bitnum) →
    ∀ g : Nat → Nat, (∀ i, g (pos + i) = v / 2 ^ (w * i) % 2 ^ w) →
    ∃ r, bigDigits w g bitnum pos = some r ∧ wordsValue w r.1 = v := by
  intro bitnum
  induction bitnum using Nat.strong_induction_on with
  | _ bitnum ih =>
    intro pos v hv hd g hg
    rw [bigDigits]
    have h0 : g pos = v % 2 ^ w := by have := hg 0; simpa using this
    split
    · next hc =>
      have hdv : w ∣ bitnum - w → w ∣ bitnum := by
        intro h; have := Dvd.dvd.add h (Nat.dvd_refl w); rwa [Nat.sub_add_cancel (by omega)] at this
      have hp : 2 ^ bitnum = 2 ^ (bitnum - w) * 2 ^ w := by rw [← Nat.pow_add]; congr 1; omega
      obtain ⟨r, e1, e2⟩ := ih (bitnum - w) (by omega) (pos + 1) (v / 2 ^ w)
        ((Nat.div_lt_iff_lt_mul (Nat.two_pow_pos w)).2 (by rw [← hp]; exact hv))
        (by rintro ⟨h1, h2⟩; exact hd ⟨by omega, hdv h2⟩) g (by
          intro i
          have := hg (i + 1)
          rw [show pos + 1 + i = pos + (i + 1) by omega, this, Nat.mul_succ, Nat.add_comm (w * i) w, Nat.pow_add,
            Nat.div_div_eq_div_mul])
      refine ⟨(g pos :: r.1, r.2), by rw [e1]; rfl, ?_⟩
      show g pos + 2 ^ w * wordsValue w r.1 = v
      rw [e2, h0]
      exact Nat.mod_add_div v (2 ^ w)
    · split
      · next hlt =>
        refine ⟨_, rfl, ?_⟩
        show (g pos &&& (2 ^ bitnum - 1)) + 2 ^ w * 0 = v
        rw [and_mask, h0, Nat.mul_zero, Nat.add_zero, Nat.mod_mod_of_dvd _ (Nat.pow_dvd_pow 2 (by omega)), Nat.mod_eq_of_lt hv]
      · exfalso
        exact hd ⟨by omega, by rw [show bitnum = w by omega]⟩

theorem bigBitnum_lt (n : Nat) : n < 2 ^ bigBitnum n := by
  unfold bigBitnum
  split
  · next h => subst h; decide
  · exact Nat.lt_log2_self

/-- C48, big integers: a value returned lies in the range asked for. -/
theorem between_big_in_range {w : Nat} {g : Nat → Nat} {excl : Bool} {fuel : Nat} {a b v : Int}
    (h : betweenBig w g excl fuel a b = some (some v)) : InRange excl a b v := by
  unfold betweenBig at h
  dsimp only at h
  obtain ⟨o1, o2⟩ := ordered a b
  rw [o1, o2, Option.map_eq_some_iff] at h
  obtain ⟨r, h2, h⟩ := h
  rw [Option.map_eq_some_iff] at h
  obtain ⟨d, rfl, rfl⟩ := h
  obtain ⟨hacc, _⟩ := drawLoop_accept _ _ h2
  unfold InRange
  cases excl
  · simp only [Bool.false_eq_true, if_false, decide_eq_true_eq] at hacc ⊢; omega
  · simp only [if_true, decide_eq_true_eq] at hacc ⊢; omega

/-- C48, big integers: unless the number of binary digits of the difference is a multiple of the word size, `between` is
defined and every value of the range can be returned. -/
theorem between_big_onto_partial {w : Nat} (hw : 0 < w) {excl : Bool} {a b v : Int}
    (hb : ¬ (0 < bigBitnum (max a b - min a b).toNat ∧ w ∣ bigBitnum (max a b - min a b).toNat)) (hv : InRange excl a b v) :
    ∃ g : Nat → Nat, (∀ n, g n < 2 ^ w) ∧ ∀ fuel, 0 < fuel → betweenBig w g excl fuel a b = some (some v) := by
  obtain ⟨h1, h2⟩ := hv
  have hvb : v ≤ max a b := by cases excl <;> simp at h2 <;> omega
  have hlt := bigBitnum_lt (max a b - min a b).toNat
  refine ⟨fun n => (v - min a b).toNat / 2 ^ (w * n) % 2 ^ w, fun n => Nat.mod_lt _ (Nat.two_pow_pos _), fun fuel hf => ?_⟩
  obtain ⟨r, e1, e2⟩ := bigDigits_onto hw (bigBitnum (max a b - min a b).toNat) 0 (v - min a b).toNat (by omega) hb
    (fun n => (v - min a b).toNat / 2 ^ (w * n) % 2 ^ w) (by intro i; simp)
  unfold betweenBig
  dsimp only
  obtain ⟨o1, o2⟩ := ordered a b
  rw [o1, o2]
  obtain ⟨f, rfl⟩ : ∃ f, fuel = f + 1 := ⟨fuel - 1, by omega⟩
  rw [drawLoop, e1, Option.map_some, Option.bind_some]
  dsimp only
  rw [e2, if_pos]
  · simp only [Option.map_some]
    rw [Int.toNat_of_nonneg (by omega)]
    congr 2; omega
  · cases excl
    · simp only [Bool.false_eq_true, if_false, decide_eq_true_eq]; omega
    · simp only [if_true, decide_eq_true_eq] at h2 ⊢; omega

/-- C48 is false for big integers when the difference has exactly a whole number of words (for example between 0 and 2^64-1
with words of 64 bits): the last word is drawn with a shift by its full width. -/
theorem between_big_refuted {w : Nat} (hw : 0 < w) {g : Nat → Nat} {excl : Bool} {fuel : Nat} {a b : Int} (hf : 0 < fuel)
    (hb : 0 < bigBitnum (max a b - min a b).toNat ∧ w ∣ bigBitnum (max a b - min a b).toNat) :
    betweenBig w g excl fuel a b = none := by
  unfold betweenBig
  dsimp only
  obtain ⟨o1, o2⟩ := ordered a b
  rw [o1, o2]
  obtain ⟨f, rfl⟩ : ∃ f, fuel = f + 1 := ⟨fuel - 1, by omega⟩
  have : bigDigits w g (bigBitnum (max a b - min a b).toNat) 0 = none := by
    cases h : bigDigits w g (bigBitnum (max a b - min a b).toNat) 0 with
    | none => rfl
    | some r => exact absurd hb ((bigDigits_defined hw g _ 0).1 ⟨r, h⟩)
  rw [drawLoop, this]
  rfl

example : 0 < bigBitnum (max 0 (2 ^ 64 - 1 : Int) - min 0 (2 ^ 64 - 1)).toNat ∧
    64 ∣ bigBitnum (max 0 (2 ^ 64 - 1 : Int) - min 0 (2 ^ 64 - 1)).toNat := by decide +kernel
example : betweenBig 8 (fun n => [3, 1].getD n 0) false 1 (-5) 1000 = some (some 254) := by decide +kernel

/-- C49: a random truth value is the parity of the byte that would have been drawn, and uses it up; of the bytes, half are
odd. -/
theorem gen_bool (a : Nat) {st : State} (h : st.entropy.length = 2048) :
    ∃ r st', gen a 0 st = some (r, st') ∧ r < 256 ∧ genBool a st = some (decide (r % 2 = 1), st') ∧
      ((Finset.range 256).filter fun g => g % 2 = 1).card = 128 := by
  obtain ⟨r, st', h1, h2, -⟩ := gen_in_range a (k := 0) (by decide) h
  refine ⟨r, st', h1, h2, ?_, by decide +kernel⟩
  have e : genBase a 0 st = some (r, st') := by simpa [gen] using h1
  unfold genBool
  rw [e, Option.map_some, Nat.and_one_is_mod]
  have : (r % 2 ≠ 0) = (r % 2 = 1) := by apply propext; omega
  simp only [this]

end ELC.Random
