import Verif.Bits.Model
import Verif.Bits.Spec

namespace ELC.Bits
open Spec

theorem bitsOf_succ (k : Nat) : bitsOf (k+1) = bitsOf k + bitsOf k := by
  simp [bitsOf, Nat.pow_succ]; omega

theorem bitsOf_pos (k : Nat) : 0 < bitsOf k := by
  have := Nat.two_pow_pos k
  simp [bitsOf, this]

theorem high_lt {v : Nat} (k : Nat) (h : v < 2 ^ bitsOf (k+1)) : v >>> bitsOf k < 2 ^ bitsOf k := by
  rw [Nat.shiftRight_eq_div_pow]
  rw [bitsOf_succ, Nat.pow_add] at h
  exact Nat.div_lt_of_lt_mul h

theorem getBitnum8_spec (v : Nat) : BinaryLength v (getBitnum8 v) := by
  fun_induction getBitnum8 v with
  | case1 v h ih =>
    obtain ⟨h1, h2, h3⟩ := ih
    simp only [Nat.shiftRight_eq_div_pow, Nat.pow_one] at h1 h2 h3 ⊢
    refine ⟨?_, by omega, fun _ => ?_⟩
    · rw [Nat.pow_succ]; omega
    · by_cases h0 : v / 2 = 0
      · rw [h2 h0]; simp; omega
      · have h4 := h3 h0
        have : getBitnum8 (v / 2) ≠ 0 := by
          intro hz; rw [hz] at h1; simp at h1; omega
        obtain ⟨m, hm⟩ := Nat.exists_eq_succ_of_ne_zero this
        simp only [hm, Nat.add_sub_cancel, Nat.succ_eq_add_one] at h4 ⊢
        rw [Nat.pow_succ]; omega
  | case2 v h =>
    have : v = 0 := by omega
    subst this
    exact ⟨by simp, fun _ => rfl, fun h => absurd rfl h⟩

theorem getBitnum_spec (k v : Nat) (h : v < 2 ^ bitsOf k) : BinaryLength v (getBitnum k v) := by
  induction k generalizing v with
  | zero => exact getBitnum8_spec v
  | succ k ih =>
    have hh := high_lt k h
    simp only [getBitnum, Nat.mod_eq_of_lt hh]
    split
    · next hne =>
      obtain ⟨h1, h2, h3⟩ := ih _ hh
      have h4 := h3 hne
      rw [Nat.shiftRight_eq_div_pow] at h1 h2 h3 h4 hne ⊢
      have hp := Nat.two_pow_pos (bitsOf k)
      have hg : getBitnum k (v / 2 ^ bitsOf k) ≠ 0 := by
        intro hz; rw [hz] at h1; simp at h1; simp at hne; omega
      refine ⟨?_, fun h0 => ?_, fun _ => ?_⟩
      · rw [Nat.pow_add]
        rw [Nat.mul_comm]; exact (Nat.div_lt_iff_lt_mul hp).1 h1
      · subst h0; simp at hne
      · rw [Nat.add_sub_assoc (by omega), Nat.pow_add, Nat.mul_comm]
        exact (Nat.le_div_iff_mul_le hp).1 h4
    · next he =>
      have he : v >>> bitsOf k = 0 := by omega
      have hv : v < 2 ^ bitsOf k := by
        rw [Nat.shiftRight_eq_div_pow] at he
        have := Nat.two_pow_pos (bitsOf k)
        exact (Nat.div_eq_zero_iff_lt this).1 he
      rw [Nat.mod_eq_of_lt hv]
      exact ih v hv

theorem testBit_high (v h i : Nat) : (v >>> h).testBit i = v.testBit (h + i) := by
  rw [Nat.testBit_shiftRight]

theorem runLength_congr {f g : Nat → Bool} {W : Nat} {b : Bool} {z : Nat}
    (h : ∀ i, i < W → f i = g i) (hr : RunLength f W b z) : RunLength g W b z := by
  obtain ⟨h1, h2, h3⟩ := hr
  exact ⟨h1, fun i hi => by rw [← h i (by omega)]; exact h2 i hi,
    fun hz => by rw [← h z hz]; exact h3 hz⟩

/-- Composition: the first half is all `b`. -/
theorem runLength_append {f : Nat → Bool} {h : Nat} {b : Bool} {z W : Nat}
    (hb : ∀ i, i < h → f i = b) (hr : RunLength (fun i => f (h + i)) W b z) :
    RunLength f (h + W) b (h + z) := by
  obtain ⟨h1, h2, h3⟩ := hr
  refine ⟨by omega, fun i hi => ?_, fun hz => h3 (by omega)⟩
  by_cases hlt : i < h
  · exact hb i hlt
  · have := h2 (i - h) (by omega)
    simpa [show h + (i - h) = i by omega] using this

/-- Composition: the run ends in the first half. -/
theorem runLength_extend {f : Nat → Bool} {h W : Nat} {b : Bool} {z : Nat}
    (hz : z < h) (hr : RunLength f h b z) : RunLength f (h + W) b z := by
  obtain ⟨_, h2, h3⟩ := hr
  exact ⟨by omega, h2, fun _ => h3 hz⟩

theorem runLength_lt {f : Nat → Bool} {h : Nat} {b : Bool} {z : Nat}
    (hr : RunLength f h b z) (hne : ∃ i, i < h ∧ f i = !b) : z < h := by
  obtain ⟨h1, h2, _⟩ := hr
  obtain ⟨i, hi, hf⟩ := hne
  by_cases hz : z < h
  · exact hz
  · have := h2 i (by omega)
    rw [hf] at this
    cases b <;> simp at this

theorem countlZero_spec (k v : Nat) (h : v < 2 ^ bitsOf k) :
    RunLength (fromLeft (bitsOf k) v) (bitsOf k) false (countlZero k v) := by
  induction k generalizing v with
  | zero =>
    obtain ⟨h1, h2, h3⟩ := getBitnum8_spec v
    simp only [bitsOf, Nat.pow_zero, Nat.mul_one] at h
    simp only [countlZero, bitsOf, Nat.pow_zero, Nat.mul_one]
    have hg : getBitnum8 v ≤ 8 := by
      by_cases hv : v = 0
      · rw [h2 hv]; omega
      · have := Nat.lt_of_le_of_lt (h3 hv) h
        have := (Nat.pow_lt_pow_iff_right (by decide : 1 < 2)).1 this
        omega
    refine ⟨by omega, fun i hi => ?_, fun hz => ?_⟩
    · exact Nat.testBit_lt_two_pow (Nat.lt_of_lt_of_le h1 (Nat.pow_le_pow_right (by decide) (by omega)))
    · have hv : v ≠ 0 := by intro hv; rw [h2 hv] at hz; omega
      have h4 := h3 hv
      have hidx : 8 - 1 - (8 - getBitnum8 v) = getBitnum8 v - 1 := by omega
      simp only [fromLeft, hidx, Bool.not_false]
      have hg0 : getBitnum8 v ≠ 0 := by omega
      obtain ⟨m, hm⟩ := Nat.exists_eq_succ_of_ne_zero hg0
      simp only [hm, Nat.succ_eq_add_one, Nat.add_sub_cancel] at h1 h4 ⊢
      rw [Nat.testBit_eq_decide_div_mod_eq]
      have : v / 2 ^ m = 1 := by
        apply Nat.div_eq_of_lt_le
        · omega
        · rw [Nat.pow_succ] at h1; omega
      simp [this]
  | succ k ih =>
    have hh := high_lt k h
    simp only [countlZero, Nat.mod_eq_of_lt hh]
    have hb := bitsOf_pos k
    split
    · next hne =>
      rw [bitsOf_succ]
      have hr := ih _ hh
      have hex : ∃ i, i < bitsOf k ∧ fromLeft (bitsOf k) (v >>> bitsOf k) i = !false := by
        obtain ⟨i, hi⟩ := Nat.exists_testBit_of_ne_zero hne
        have hlt : i < bitsOf k := by
          by_cases hc : i < bitsOf k
          · exact hc
          · rw [Nat.testBit_lt_two_pow (Nat.lt_of_lt_of_le hh
              (Nat.pow_le_pow_right (by decide) (by omega)))] at hi
            cases hi
        refine ⟨bitsOf k - 1 - i, by omega, ?_⟩
        simp only [fromLeft, Bool.not_false]
        rw [show bitsOf k - 1 - (bitsOf k - 1 - i) = i by omega]; exact hi
      have hz := runLength_lt hr hex
      apply runLength_extend hz
      refine runLength_congr (fun i hi => ?_) hr
      simp only [fromLeft, testBit_high]; congr 1; omega
    · next he =>
      have he : v >>> bitsOf k = 0 := by omega
      have hv : v < 2 ^ bitsOf k := by
        rw [Nat.shiftRight_eq_div_pow] at he
        have := Nat.two_pow_pos (bitsOf k)
        exact (Nat.div_eq_zero_iff_lt this).1 he
      rw [Nat.mod_eq_of_lt hv, bitsOf_succ]
      apply runLength_append
      · intro i hi
        exact Nat.testBit_lt_two_pow (Nat.lt_of_lt_of_le hv
          (Nat.pow_le_pow_right (by decide) (by omega)))
      · refine runLength_congr (fun i hi => ?_) (ih v hv)
        simp only [fromLeft]; congr 1; omega

theorem countrOne8_spec (v W : Nat) (h : v < 2 ^ W) :
    RunLength (fromRight v) W true (countrOne8 v) := by
  fun_induction countrOne8 v generalizing W with
  | case1 v hv ih =>
    cases W with
    | zero => simp at h; omega
    | succ W =>
      have := ih W (by
        rw [Nat.shiftRight_eq_div_pow]; rw [Nat.pow_succ] at h; omega)
      rw [Nat.add_comm W 1, Nat.add_comm _ 1]
      apply runLength_append
      · intro i hi
        have : i = 0 := by omega
        subst this; simp [fromRight, Nat.testBit_zero, hv]
      · refine runLength_congr (fun i hi => ?_) this
        simp only [fromRight, testBit_high]
  | case2 v hv =>
    refine ⟨by omega, fun i hi => by omega, fun _ => ?_⟩
    simp [fromRight, Nat.testBit_zero]; omega

theorem all_ones_of_eq {v h : Nat} (he : v % 2 ^ h = 2 ^ h - 1) (i : Nat) (hi : i < h) :
    v.testBit i = true := by
  have := congrArg (fun x => x.testBit i) he
  simpa [Nat.testBit_mod_two_pow, hi, Nat.testBit_two_pow_sub_one] using this

theorem exists_zero_of_ne {v h : Nat} (hv : v < 2 ^ h) (he : v ≠ 2 ^ h - 1) :
    ∃ i, i < h ∧ v.testBit i = false := by
  apply Classical.byContradiction
  intro hc
  apply he
  apply Nat.eq_of_testBit_eq
  intro i
  rw [Nat.testBit_two_pow_sub_one]
  by_cases hi : i < h
  · simp only [hi, decide_true]
    cases hb : v.testBit i with
    | true => rfl
    | false => exact absurd ⟨i, hi, hb⟩ hc
  · simp only [hi, decide_false]
    exact Nat.testBit_lt_two_pow (Nat.lt_of_lt_of_le hv (Nat.pow_le_pow_right (by decide) (by omega)))

theorem countrOne_spec (k v : Nat) (h : v < 2 ^ bitsOf k) :
    RunLength (fromRight v) (bitsOf k) true (countrOne k v) := by
  induction k generalizing v with
  | zero => exact countrOne8_spec v 8 (by simpa [bitsOf] using h)
  | succ k ih =>
    have hh := high_lt k h
    have hlow : v % 2 ^ bitsOf k < 2 ^ bitsOf k := Nat.mod_lt _ (Nat.two_pow_pos _)
    simp only [countrOne, Nat.mod_eq_of_lt hh, bitsOf_succ]
    split
    · next he =>
      apply runLength_append
      · intro i hi; exact all_ones_of_eq he i hi
      · refine runLength_congr (fun i hi => ?_) (ih _ hh)
        simp only [fromRight, testBit_high]
    · next hne =>
      have hr := ih _ hlow
      have hz := runLength_lt hr (by simpa [fromRight] using exists_zero_of_ne hlow hne)
      apply runLength_extend hz
      refine runLength_congr (fun i hi => ?_) hr
      simp [fromRight, Nat.testBit_mod_two_pow, hi]

theorem countlOne8_spec (v : Nat) : RunLength (fromLeft 8 v) 8 true (countlOne8 v) := by
  fun_induction countlOne8 v with
  | case1 v hv ih =>
    have hshift : ∀ i, i < 7 → fromLeft 8 (v <<< 1 % 256) i = fromLeft 8 v (1 + i) := by
      intro i hi
      simp only [fromLeft]
      rw [show (256 : Nat) = 2 ^ 8 from rfl, Nat.testBit_mod_two_pow, Nat.testBit_shiftLeft]
      have : 8 - 1 - i < 8 := by omega
      simp only [this, decide_true, Bool.true_and]
      have : 8 - 1 - i ≥ 1 := by omega
      simp only [this, decide_true, Bool.true_and]
      congr 1; omega
    have hlast : fromLeft 8 (v <<< 1 % 256) 7 = !true := by
      simp only [fromLeft]
      rw [show (256 : Nat) = 2 ^ 8 from rfl, Nat.testBit_mod_two_pow, Nat.testBit_shiftLeft]
      simp
    have hz := runLength_lt ih ⟨7, by omega, hlast⟩
    obtain ⟨h1, h2, h3⟩ := ih
    refine ⟨by omega, fun i hi => ?_, fun hlt => ?_⟩
    · cases i with
      | zero => simpa [fromLeft] using hv
      | succ i =>
        rw [Nat.add_comm, ← hshift i (by omega)]; exact h2 i (by omega)
    · rw [Nat.add_comm, ← hshift _ (by omega)]; exact h3 (by omega)
  | case2 v hv =>
    refine ⟨by omega, fun i hi => by omega, fun _ => ?_⟩
    simpa [fromLeft] using hv

theorem countlOne_spec (k v : Nat) (h : v < 2 ^ bitsOf k) :
    RunLength (fromLeft (bitsOf k) v) (bitsOf k) true (countlOne k v) := by
  induction k generalizing v with
  | zero => exact countlOne8_spec v
  | succ k ih =>
    have hh := high_lt k h
    have hlow : v % 2 ^ bitsOf k < 2 ^ bitsOf k := Nat.mod_lt _ (Nat.two_pow_pos _)
    have hhigh : ∀ i, i < bitsOf k → fromLeft (bitsOf k) (v >>> bitsOf k) i
        = fromLeft (bitsOf k + bitsOf k) v i := by
      intro i hi
      simp only [fromLeft, testBit_high]; congr 1; omega
    simp only [countlOne, Nat.mod_eq_of_lt hh, bitsOf_succ]
    split
    · next he =>
      apply runLength_append
      · intro i hi
        rw [← hhigh i hi]
        exact all_ones_of_eq (by rw [Nat.mod_eq_of_lt hh]; exact he) _ (by omega)
      · refine runLength_congr (fun i hi => ?_) (ih _ hlow)
        have : bitsOf k - 1 - i < bitsOf k := by omega
        simp only [fromLeft, Nat.testBit_mod_two_pow, this, decide_true, Bool.true_and]
        congr 1; omega
    · next hne =>
      have hr := ih _ hh
      obtain ⟨i, hi, hb⟩ := exists_zero_of_ne hh hne
      have hz := runLength_lt hr ⟨bitsOf k - 1 - i, by omega, by
        simp only [fromLeft, show bitsOf k - 1 - (bitsOf k - 1 - i) = i by omega, hb, Bool.not_true]⟩
      exact runLength_extend hz (runLength_congr hhigh hr)

theorem countrZero_spec (k v : Nat) (h : v < 2 ^ bitsOf k) :
    RunLength (fromRight v) (bitsOf k) false (countrZero k v) := by
  induction k generalizing v with
  | zero =>
    simp only [bitsOf, Nat.pow_zero, Nat.mul_one] at h ⊢
    obtain ⟨h1, h2, h3⟩ := countrOne8_spec (255 - v) 8 (by omega)
    have key : ∀ i, i < 8 → (255 - v).testBit i = !v.testBit i := by
      intro i hi
      have := Nat.testBit_two_pow_sub_succ h i
      rw [show 2 ^ 8 - (v + 1) = 255 - v by omega] at this
      simpa [hi] using this
    simp only [countrZero]
    refine ⟨h1, fun i hi => ?_, fun hz => ?_⟩
    · have := h2 i hi
      simp only [fromRight] at this ⊢
      rw [key i (by omega)] at this
      cases hb : v.testBit i <;> simp_all
    · have := h3 hz
      simp only [fromRight] at this ⊢
      rw [key _ hz] at this
      simpa using this
  | succ k ih =>
    have hh := high_lt k h
    have hlow : v % 2 ^ bitsOf k < 2 ^ bitsOf k := Nat.mod_lt _ (Nat.two_pow_pos _)
    have hl : ∀ i, i < bitsOf k → fromRight (v % 2 ^ bitsOf k) i = fromRight v i := by
      intro i hi; simp [fromRight, Nat.testBit_mod_two_pow, hi]
    simp only [countrZero, Nat.mod_eq_of_lt hh, bitsOf_succ]
    split
    · next hne =>
      have hr := ih _ hlow
      obtain ⟨i, hi⟩ := Nat.exists_testBit_of_ne_zero hne
      have hlt : i < bitsOf k := by
        rw [Nat.testBit_mod_two_pow] at hi
        simp at hi; exact hi.1
      have hz := runLength_lt hr ⟨i, hlt, by simpa [fromRight] using hi⟩
      exact runLength_extend hz (runLength_congr hl hr)
    · next he =>
      have he : v % 2 ^ bitsOf k = 0 := by omega
      apply runLength_append
      · intro i hi
        rw [← hl i hi]; simp [fromRight, he]
      · refine runLength_congr (fun i hi => ?_) (ih _ hh)
        simp only [fromRight, testBit_high]

theorem runLength_unique {f : Nat → Bool} {W : Nat} {b : Bool} {z z' : Nat}
    (h : RunLength f W b z) (h' : RunLength f W b z') : z = z' := by
  obtain ⟨h1, h2, h3⟩ := h
  obtain ⟨h1', h2', h3'⟩ := h'
  rcases Nat.lt_trichotomy z z' with hlt | heq | hgt
  · have := h3 (by omega); rw [h2' z hlt] at this; cases b <;> simp at this
  · exact heq
  · have := h3' (by omega); rw [h2 z' hgt] at this; cases b <;> simp at this

/-! ### rotation -/

theorem getLsbD_rotlNomod {w : Nat} (v : BitVec w) (r i : Nat) (hr : r < w) (hi : i < w) :
    (rotlNomod v r).getLsbD i = v.getLsbD ((i + w - r) % w) := by
  unfold rotlNomod
  by_cases h0 : r = 0
  · subst h0; simp [Nat.mod_eq_of_lt hi]
  · simp only [h0, ne_eq, not_false_eq_true, if_true, BitVec.getLsbD_or, BitVec.getLsbD_shiftLeft,
      BitVec.getLsbD_ushiftRight]
    by_cases h : i < r
    · simp only [h, hi, decide_true, Bool.not_true, Bool.true_and, Bool.false_and, Bool.false_or]
      rw [Nat.mod_eq_of_lt (by omega)]; congr 1; omega
    · have : v.getLsbD (w - r + i) = false := by
        apply BitVec.getLsbD_of_ge; omega
      simp only [h, hi, this, decide_true, decide_false, Bool.not_false, Bool.true_and, Bool.or_false]
      rw [show i + w - r = i - r + w by omega, Nat.add_mod_right, Nat.mod_eq_of_lt (by omega)]

theorem getLsbD_rotrNomod {w : Nat} (v : BitVec w) (r i : Nat) (hr : r < w) (hi : i < w) :
    (rotrNomod v r).getLsbD i = v.getLsbD ((i + r) % w) := by
  unfold rotrNomod
  by_cases h0 : r = 0
  · subst h0; simp [Nat.mod_eq_of_lt hi]
  · simp only [h0, ne_eq, not_false_eq_true, if_true, BitVec.getLsbD_or, BitVec.getLsbD_shiftLeft,
      BitVec.getLsbD_ushiftRight]
    by_cases h : i + r < w
    · have : i < w - r := by omega
      simp only [this, hi, decide_true, Bool.not_true, Bool.true_and, Bool.false_and, Bool.or_false]
      rw [Nat.mod_eq_of_lt h, Nat.add_comm]
    · have h1 : v.getLsbD (r + i) = false := by
        apply BitVec.getLsbD_of_ge; omega
      have h2 : ¬ i < w - r := by omega
      simp only [h2, hi, h1, decide_true, decide_false, Bool.not_false, Bool.true_and,
        Bool.false_or]
      rw [show (i + r) % w = i + r - w from by
        rw [Nat.mod_eq_sub_mod (by omega), Nat.mod_eq_of_lt (by omega)]]
      congr 1; omega

/-! ### bitset -/

theorem byte_bit (b : BitVec 8) (m : Nat) (hm : m < 8) :
    ((b &&& (1#8 <<< m)) != 0#8) = b.getLsbD m := by
  have hb : b.getLsbD m = (b &&& (1#8 <<< m)).getLsbD m := by
    simp [hm]
  rw [hb]
  cases h : (b &&& (1#8 <<< m)).getLsbD m with
  | true =>
    simp only [bne_iff_ne, ne_eq]
    intro h0; rw [h0] at h; simp at h
  | false =>
    simp only [bne_eq_false_iff_eq]
    apply BitVec.eq_of_getLsbD_eq
    intro i hi
    by_cases him : i = m
    · subst him; rw [h]; simp
    · simp
      intro _ _ _; omega

theorem bsGet_eq (d : Bytes) (i : Nat) :
    bsGet d i = (d[i / 8]?).map fun b => b.getLsbD (i % 8) := by
  unfold bsGet
  congr 1; funext b
  exact byte_bit b _ (Nat.mod_lt _ (by decide))

theorem bsGet_update (d : Bytes) (i j : Nat) (f : BitVec 8 → BitVec 8) (d' : Bytes)
    (hf : ∀ b m, m < 8 → m ≠ i % 8 → (f b).getLsbD m = b.getLsbD m)
    (hd : bsUpdate d i f = some d') :
    d'.length = d.length ∧
    bsGet d' j = if j = i then (d[i / 8]?).map (fun b => (f b).getLsbD (i % 8)) else bsGet d j := by
  unfold bsUpdate at hd
  split at hd
  · next hlt =>
    simp only [Option.some.injEq] at hd
    subst hd
    refine ⟨by simp, ?_⟩
    rw [bsGet_eq, bsGet_eq]
    rw [List.getElem?_modify]
    by_cases hji : j = i
    · subst hji; simp [Option.map_map]; rfl
    · simp only [hji, if_false]
      by_cases hq : i / 8 = j / 8
      · simp only [hq, if_true]
        cases d[j / 8]? with
        | none => rfl
        | some b =>
          simp only [Option.map_eq_map, Option.map_some]
          rw [hf b _ (Nat.mod_lt _ (by decide)) (by omega)]
      · simp [hq]
  · cases hd

theorem bsOfNat_length (s n : Nat) : (bsOfNat s n).length = s := by
  induction s generalizing n with
  | zero => rfl
  | succ s ih => simp [bsOfNat, ih]

theorem bsOfNat_get (s n i : Nat) (hi : i < 8 * s) : bsGet (bsOfNat s n) i = some (n.testBit i) := by
  induction s generalizing n i with
  | zero => omega
  | succ s ih =>
    rw [bsGet_eq]
    simp only [bsOfNat]
    by_cases h8 : i < 8
    · have : i / 8 = 0 := by omega
      simp only [this, List.getElem?_cons_zero, Option.map_some]
      congr 1
      rw [BitVec.getLsbD_ofNat, show (256 : Nat) = 2 ^ 8 from rfl, Nat.testBit_mod_two_pow]
      have : i % 8 < 8 := by omega
      simp only [this, decide_true, Bool.true_and]
      congr 1; omega
    · have hq : i / 8 = (i - 8) / 8 + 1 := by omega
      rw [hq, List.getElem?_cons_succ, ← show (i - 8) % 8 = i % 8 by omega, ← bsGet_eq,
        ih _ _ (by omega)]
      congr 1
      rw [show n / 256 = n >>> 8 by rw [Nat.shiftRight_eq_div_pow], Nat.testBit_shiftRight]
      congr 1; omega

theorem testBit_horner (x : Nat) (b : BitVec 8) (i : Nat) :
    (x * 256 + b.toNat).testBit i = if i < 8 then b.getLsbD i else x.testBit (i - 8) := by
  have := Nat.testBit_two_pow_mul_add x (i := 8) (b := b.toNat) b.isLt i
  rw [Nat.mul_comm x 256, show (256 : Nat) = 2 ^ 8 from rfl, this]
  rfl

theorem bsToNat_testBit (t : Nat) (d : Bytes) (i : Nat) :
    (bsToNat t d).testBit i = (decide (i < t) && (bsGet d i).getD false) := by
  induction d generalizing i with
  | nil => simp [bsToNat, bsGet]
  | cons b d ih =>
    have hmod : bsToNat t (b :: d) = (bsToNat t d * 256 + b.toNat) % 2 ^ t := by
      simp [bsToNat, Nat.add_mod]
    rw [hmod, Nat.testBit_mod_two_pow, testBit_horner, bsGet_eq]
    by_cases hit : i < t
    · simp only [hit, decide_true, Bool.true_and]
      by_cases h8 : i < 8
      · simp [h8, show i / 8 = 0 by omega, show i % 8 = i by omega]
      · simp only [h8, if_false]
        rw [ih, show i / 8 = (i - 8) / 8 + 1 by omega, List.getElem?_cons_succ,
          ← show (i - 8) % 8 = i % 8 by omega, ← bsGet_eq]
        simp [show i - 8 < t by omega]
    · simp [hit]

end ELC.Bits
