import Verif.FloatText.Total
import Verif.Float.Props
/-!
C97, C98: what a program relies on when it prints native floating point numbers, and `integer_log`.

A text denotes the number `Numeral.Spec.Reads` gives it; `Float.Spec` says what the bits of a number denote.
-/
namespace ELC.FloatText

open ELC.Float ELC.Float.Spec
open ELC.Numeral (Rep Usable)
open ELC.Numeral.Spec (Reads)

variable {I : Info} {f : Format} {R : Rep}

theorem usable_decimal : Usable Numeral.decimal :=
  Numeral.usable_continuous _ _ _ (by decide) (by decide) (by decide) (Or.inl (by decide)) (by decide)

/-! ### C97 -/

/-- C97: an integer below `2^64` prints in every radix as itself, and a positive one is read back unchanged. -/
theorem text_integer_partial (h : IsNative I f) (hR : Usable R) (w : Nat) {v n : Nat} (hv : Plain f v)
    (hm : magnitude f v = n) (hn : n < 2 ^ 64) (thr : Nat) (h1 : 1 ≤ thr) (h64 : R.radix ^ thr ≤ 2 ^ 64) :
    ∃ s, toText I R w v = .done s ∧ Reads R s n ∧
      (0 < n → ∃ st, readFloat I R thr s {} = (.done v, st) ∧ st.error = false) := by
  obtain ⟨s, h2, h3⟩ := toText_integer (w := w) h.agrees hR hv hm hn
  refine ⟨s, h2, h3, fun hp => ?_⟩
  refine read_exact_partial h hR thr h1 h64 hv ?_ (by rw [hm]; exact h3) {} rfl
  rintro rfl
  rw [magnitude_one h.agrees _ hv.1, units_zero, Nat.cast_zero, zero_div] at hm
  have : n = 0 := by exact_mod_cast hm.symm
  omega

/-- `1000` as `double`. -/
example : Plain binary64 0x408F400000000000 ∧ magnitude binary64 0x408F400000000000 = (1000 : Nat) ∧
    toText float64 Numeral.decimal 64 0x408F400000000000 = .done [0x31, 0x65, 0x33] := by
  refine ⟨by decide, by norm_num [magnitude, field, fraction, binary64], by decide +kernel⟩

/-- C97: a text there is denotes a number the printed one is next to; or the number is below one, was taken for a
fraction `n/d` whose denominator shares a factor with the radix, and the denominator printed is not `d`. -/
theorem text_characterised (h : IsNative I f) (hR : Usable R) (h128 : 128 ≤ R.radix ^ 3) {w : Nat} (hw : 0 < w) {v : Nat}
    (hv : Plain f v) (h0 : v ≠ 0)
    (hodd : R.radix % 2 = 1 → getExponent I v < 0 → ¬ R.radix ^ 3 ∣ getPrecision I v) {s : List Nat}
    (hs : toText I R w v = .done s) :
    (∃ q, Reads R s q ∧ (Down f q v ∨ Up f q v)) ∨
      (magnitude f v < 1 ∧ ∃ n d d' c k : Nat, 0 < n ∧ n < 2 ^ 7 ∧ d ≤ 2 ^ 17 ∧ Rounded f (n / d) v ∧
        d * c = d' * R.radix ^ k ∧ 0 < k ∧ (d' * c % 2 ^ 64 = 0 ∨ Reads R s (n / (d' * c % 2 ^ 64 : Nat)))) := by
  rcases toText_spec h.agrees hR h128 hw hv h0 hodd hs with ⟨q, q1, q2, _⟩ | hg
  · exact Or.inl ⟨q, q1, q2⟩
  · exact Or.inr hg

/-- C97: from one on a text denotes a number that the printed one is next to. -/
theorem text_close_partial (h : IsNative I f) (hR : Usable R) (he : R.radix % 2 = 0) (h128 : 128 ≤ R.radix ^ 3)
    {w : Nat} (hw : 0 < w) {v : Nat} (hv : Plain f v) (hge : 1 ≤ magnitude f v) {s : List Nat}
    (hs : toText I R w v = .done s) : ∃ q, Reads R s q ∧ (Down f q v ∨ Up f q v) := by
  have h0 : v ≠ 0 := by
    rintro rfl
    rw [magnitude_one h.agrees _ hv.1, units_zero, Nat.cast_zero, zero_div] at hge
    norm_num at hge
  rcases text_characterised h hR h128 hw hv h0 (by omega) hs with hq | ⟨hlt, _⟩
  · exact hq
  · linarith

/-- C97: in an odd radix a text of a number from one on denotes the number itself. -/
theorem text_odd_partial (h : IsNative I f) (hR : Usable R) (ho : R.radix % 2 = 1) (h128 : 128 ≤ R.radix ^ 3)
    {w : Nat} (hw : 0 < w) {v : Nat} (hv : Plain f v) (hge : 1 ≤ magnitude f v)
    (h3 : getExponent I v < 0 → ¬ R.radix ^ 3 ∣ getPrecision I v) {s : List Nat}
    (hs : toText I R w v = .done s) : Reads R s (magnitude f v) := by
  have h0 : v ≠ 0 := by
    rintro rfl
    rw [magnitude_one h.agrees _ hv.1, units_zero, Nat.cast_zero, zero_div] at hge
    norm_num at hge
  rcases toText_spec h.agrees hR h128 hw hv h0 (fun _ => h3) hs with ⟨q, q1, _, q3⟩ | ⟨hlt, _⟩
  · rw [← q3 ho hge]; exact q1
  · linarith

/-- `2.5` and `pi` in decimal, `2.5` with seven digits. -/
example : toText float64 Numeral.decimal 64 0x4004000000000000 = .done [0x32, 0x2E, 0x35] ∧
    toText float64 Numeral.decimal 64 0x400921FB54442D18 = .done [0x33, 0x2E, 0x31, 0x34, 0x31, 0x35, 0x39, 0x32, 0x36,
      0x35, 0x33, 0x35, 0x38, 0x39, 0x37, 0x39, 0x33, 0x31] ∧
    (∃ s, toText float64 (Numeral.continuous 0x30 7 [7]) 64 0x4004000000000000 = .done s) ∧
    ¬ (7 ^ 3 ∣ getPrecision float64 0x4004000000000000) := by
  refine ⟨by decide +kernel, by decide +kernel, ?_, by decide +kernel⟩
  have : ∃ s ∈ (match toText float64 (Numeral.continuous 0x30 7 [7]) 64 0x4004000000000000 with
      | .done s => some s
      | _ => none), True := by decide +kernel
  obtain ⟨s, hs, _⟩ := this
  refine ⟨s, ?_⟩
  cases ht : toText float64 (Numeral.continuous 0x30 7 [7]) 64 0x4004000000000000 with
  | done t => rw [ht] at hs; simp at hs; rw [hs]
  | undefined => rw [ht] at hs; simp at hs
  | spins => rw [ht] at hs; simp at hs

/-- C97: what is read back from the text of a number from one on is at most one place off, unless the leading binary
digits of what the text denotes are all ones. -/
theorem text_reads_back_partial (h : IsNative I f) (hR : Usable R) (he : R.radix % 2 = 0) (h128 : 128 ≤ R.radix ^ 3)
    {w : Nat} (hw : 0 < w) {v : Nat} (hv : Plain f (v + 1)) (hge : 1 ≤ magnitude f v) {s : List Nat}
    (hs : toText I R w v = .done s) (thr : Nat) (h1 : 1 ≤ thr) (h64 : R.radix ^ thr ≤ 2 ^ 64) :
    ∃ q, Reads R s q ∧ (¬ Ones f.width q → ∃ r st, readFloat I R thr s {} = (.done r, st) ∧ st.error = false ∧
      (r = v ∨ r + 1 = v ∨ r = v + 1)) := by
  have hp : Plain f v := (plain_iff h.agrees v).2 (by have := (plain_iff h.agrees (v + 1)).1 hv; omega)
  obtain ⟨q, q1, q2⟩ := text_close_partial h hR he h128 hw hp hge hs
  refine ⟨q, q1, fun hones => ?_⟩
  -- the range
  have hbias := h.agrees.biasPos
  have hroom := h.agrees.room
  have hmax : ∀ d, Plain f d → magnitude f d < 2 ^ (f.bias + 1 : ℤ) := fun d hd => magnitude_lt h.agrees hd
  have hlt : q < 2 ^ (f.bias + 1 : ℤ) := by
    rcases q2 with q2 | q2
    · by_contra hc
      have h3 := q2.2.2 (v + 1) hv (le_trans (hmax _ hv).le (not_lt.1 hc))
      have := (magnitude_le_magnitude h.agrees hv.1 hp.1).1 h3
      omega
    · exact lt_of_le_of_lt q2.2.1 (hmax _ hp)
  have hhalf : (2 : ℚ) ^ (2 - f.bias - f.width : ℤ) ≤ q := by
    rcases q2 with q2 | q2
    · refine le_trans ?_ (le_trans hge q2.2.1)
      exact zpow_le_one_of_nonpos₀ (by norm_num) (by omega)
    · by_contra hc
      have hv0 : v ≠ 0 := by
        rintro rfl
        rw [magnitude_one h.agrees _ hp.1, units_zero, Nat.cast_zero, zero_div] at hge
        norm_num at hge
      have hsm : Plain f 1 := (plain_iff h.agrees _).2 (by have := (plain_iff h.agrees _).1 hp; omega)
      have hK : (Kof f : ℤ) = f.p + f.bias - 1 := by unfold Kof; omega
      have hpos := magnitude_pos_ge h.agrees hsm (by norm_num)
      have h5 := q2.2.2 1 hsm (le_trans (not_le.1 hc).le (le_trans (zpow_le_iff.2 (by omega)) hpos))
      have hu : units f.p 1 = 1 := by
        have := units_succ f.p 0
        rw [units_zero] at this
        simpa using this
      have ho : (0 : ℚ) < one I := by exact_mod_cast one_pos h.agrees
      have h6 := le_trans hge h5
      rw [magnitude_one h.agrees _ hsm.1, hu, Nat.cast_one, one_le_div ho] at h6
      have h7 : one I ≤ 1 := by exact_mod_cast h6
      rw [one_eq h.agrees] at h7
      have hl := h.agrees.large
      have : 2 ^ 1 ≤ 2 ^ Kof f := Nat.pow_le_pow_right (by norm_num) (by omega)
      omega
  obtain ⟨r, st, e1, e2, e3⟩ := read_neighbour_partial h hR thr h1 h64 q1 hones hhalf hlt {} rfl
  refine ⟨r, st, e1, e2, next_next h.agrees q2 ?_⟩
  rcases e3 with e3 | e3
  · exact Or.inl e3
  · exact Or.inr e3.1

/-- C97: making a text comes to an end for every number and in every radix. -/
theorem text_ends (h : IsNative I f) (hR : Usable R) {w : Nat} (hw : 0 < w) {v : Nat} (hv : Plain f v) :
    toText I R w v ≠ .spins := toText_ends h.agrees hR hw hv

/-- C97 fails: the `double` written `1/6` prints as `1/15`. -/
theorem text_sixth_refuted :
    Plain binary64 0x3FC5555555555555 ∧ Nearest binary64 (1 / 6) 0x3FC5555555555555 ∧
    toText float64 Numeral.decimal 64 0x3FC5555555555555 = .done [0x31, 0x2F, 0x31, 0x35] := by
  refine ⟨by decide, ?_, by decide +kernel⟩
  have := (fdiv_rounded native64.agrees (n := 1) (d := 6) (v := 0x3FC5555555555555) (by norm_num) (by norm_num) (by norm_num)
    (by decide +kernel) (by decide)).1
  simpa using this

/-- C97 fails: `0.1 + 0.2` and what is read back from its text are different numbers. -/
theorem text_reads_back_refuted :
    toText float64 Numeral.decimal 64 0x3FD3333333333334 = .done [0x30, 0x2E, 0x33, 0x30, 0x30, 0x30, 0x30, 0x30, 0x30, 0x30, 0x30,
      0x30, 0x30, 0x30, 0x30, 0x30, 0x30, 0x30, 0x34] ∧
    (readFloat float64 Numeral.decimal 19 [0x30, 0x2E, 0x33, 0x30, 0x30, 0x30, 0x30, 0x30, 0x30, 0x30, 0x30,
      0x30, 0x30, 0x30, 0x30, 0x30, 0x30, 0x30, 0x34] {}).1 = .done 0x3FD3333333333333 := by
  decide +kernel

/-- C97 fails: for the `float` and the `double` worth `2^64` the behaviour is undefined. -/
theorem text_size_refuted (R : Rep) (w : Nat) :
    magnitude binary32 0x5F800000 = 2 ^ 64 ∧ toText float32 R w 0x5F800000 = .undefined ∧
    magnitude binary64 0x43F0000000000000 = 2 ^ 64 ∧ toText float64 R w 0x43F0000000000000 = .undefined := by
  refine ⟨by norm_num [magnitude, field, fraction, binary32], ?_, by norm_num [magnitude, field, fraction, binary64], ?_⟩
  · have h1 : toDivide float32 0x5F800000 = .done (some (0x5F800000, 1)) := by decide +kernel
    have h2 : (0x5F800000 : Nat) ≤ ofNat float32 (2 ^ 64 - 1) := by decide +kernel
    have h3 : toSize float32 0x5F800000 = .undefined := by decide +kernel
    unfold toText
    rw [h1]
    dsimp only
    rw [if_neg (by simp), if_pos h2, h3]
  · have h1 : toDivide float64 0x43F0000000000000 = .done (some (0x43F0000000000000, 1)) := by decide +kernel
    have h2 : (0x43F0000000000000 : Nat) ≤ ofNat float64 (2 ^ 64 - 1) := by decide +kernel
    have h3 : toSize float64 0x43F0000000000000 = .undefined := by decide +kernel
    unfold toText
    rw [h1]
    dsimp only
    rw [if_neg (by simp), if_pos h2, h3]

/-- C97 fails: for every positive number up to `2^-64` the behaviour is undefined. -/
theorem text_tiny_refuted (h : IsNative I f) (R : Rep) (w : Nat) {v : Nat} (hv : Plain f v) (h0 : v ≠ 0)
    (hs : magnitude f v ≤ 2 ^ (-64 : ℤ)) : toText I R w v = .undefined := by
  have h1 := to_fraction_tiny_refuted h hv h0 hs
  have h2 : toDivide I v = .undefined := by
    unfold toFraction at h1
    dsimp only at h1
    split at h1
    · split at h1
      · cases h1
      · cases h1
      · assumption
      · cases h1
    · cases h1
  unfold toText
  rw [h2]

/-- C97 fails in radix two: `32/33` prints as `1e101/100001`, where the exponent is inside the numerator; reading it
back is an error. -/
theorem text_binary_refuted :
    toText float64 Numeral.binary 64 0x3FEF07C1F07C1F08 = .done [0x31, 0x65, 0x31, 0x30, 0x31, 0x2F, 0x31, 0x30, 0x30, 0x30,
      0x30, 0x31] ∧
    (readFloat float64 Numeral.binary 63 [0x31, 0x65, 0x31, 0x30, 0x31, 0x2F, 0x31, 0x30, 0x30, 0x30, 0x30, 0x31] {}).2.error =
      true := by
  decide +kernel

/-! ### C98 -/

/-- C98: `integer_log` of a big integer is the exponent of the greatest power of the base not above the number. -/
theorem integer_log_correct {a b : Nat} (hb : 2 ≤ b) (ha : 1 ≤ a) :
    ∃ k, integerLog a b = some k ∧ b ^ k ≤ a ∧ a < b ^ (k + 1) := integerLog_spec hb ha

example : integerLog 1000 10 = some 3 ∧ integerLog 999 10 = some 2 ∧ integerLog (2 ^ 40 - 1) 7 = some 14 := by decide +kernel

/-- C98: the same for a native integer of `t` bits when the number and the base are below `2^(t/2)`. -/
theorem integer_log_native_partial {t a b : Nat} (hb : 2 ≤ b) (ha : 1 ≤ a) (hal : a < 2 ^ (t / 2)) (hbl : b < 2 ^ (t / 2)) :
    ∃ k, (logImplNative t a (a + 1) (a + 1) 1 b 1).map Prod.fst = some k ∧ b ^ k ≤ a ∧ a < b ^ (k + 1) := by
  have hM : 2 ^ (t / 2) * 2 ^ (t / 2) ≤ 2 ^ t := by
    rw [← pow_add]; exact Nat.pow_le_pow_right (by norm_num) (by omega)
  rw [(logImplNative_eq hM hal (a + 1) 1 b 1 hbl ha).1]
  exact integerLog_spec hb ha

example : (logImplNative 64 1000 1001 1001 1 10 1).map Prod.fst = some 3 := by decide +kernel

/-- C98 fails: `integer_log` of the greatest 64 bit integer to the base two never ends, however many rounds are
allowed. -/
theorem integer_log_native_refuted (rounds fuel : Nat) : logImplNative 64 (2 ^ 64 - 1) rounds fuel 1 2 1 = none := by
  have step : ∀ (lv num : Nat), lv * lv % 2 ^ 64 < 2 ^ 64 - 1 →
      (∀ fuel, logImplNative 64 (2 ^ 64 - 1) rounds fuel 1 (lv * lv % 2 ^ 64) (num * 2) = none) →
      ∀ fuel, logImplNative 64 (2 ^ 64 - 1) rounds fuel 1 lv num = none := by
    intro lv num hlt hn fuel
    cases fuel with
    | zero => rfl
    | succ fuel => rw [logImplNative, if_pos hlt, hn fuel]
  refine step 2 1 (by norm_num) (step _ _ (by norm_num) (step _ _ (by norm_num) (step _ _ (by norm_num)
    (step _ _ (by norm_num) (step _ _ (by norm_num) (step _ _ (by norm_num) ?_)))))) fuel
  intro fuel
  norm_num
  exact logImplNative_zero (by norm_num) fuel 1 _

end ELC.FloatText
