import Verif.Numeral.Lemmas
import Verif.Bigfloat.Props
import Mathlib.Tactic.FieldSimp
namespace ELC.Numeral
open Spec ELC.Bigfloat ELC.Bigfloat.Spec

/-! ### reading fractions -/

theorem splitFirst_none {c : Nat} {s : List Nat} (h : c ∉ s) : splitFirst c s = none := by
  induction s with
  | nil => rfl
  | cons x xs ih =>
    rw [splitFirst, if_neg (by intro e; apply h; simp [e]), ih (by intro h'; apply h; simp [h'])]; rfl

theorem splitFirst_mid {c : Nat} {a : List Nat} (b : List Nat) (h : c ∉ a) :
    splitFirst c (a ++ c :: b) = some (a, b) := by
  induction a with
  | nil => simp [splitFirst]
  | cons x xs ih =>
    rw [List.cons_append, splitFirst, if_neg (by intro e; apply h; simp [e]),
      ih (by intro h'; apply h; simp [h'])]; rfl

theorem splitLast_none {c : Nat} {s : List Nat} (h : c ∉ s) : splitLast c s = none := by
  rw [splitLast, splitFirst_none (by simpa using h)]; rfl

theorem splitLast_mid {c : Nat} (a : List Nat) {b : List Nat} (h : c ∉ b) :
    splitLast c (a ++ c :: b) = some (a, b) := by
  have : (a ++ c :: b).reverse = b.reverse ++ c :: a.reverse := by simp
  rw [splitLast, this, splitFirst_mid _ (by simpa using h)]; simp

theorem notDigit_not_mem {R : Rep} {c : Nat} (h : NotDigit R c) {ds : List Nat} (hd : ∀ d ∈ ds, d < R.radix) :
    c ∉ ds.map R.getChar := by
  intro hm
  obtain ⟨d, h1, h2⟩ := List.mem_map.1 hm
  exact h d (hd d h1) h2

variable {R : Rep} {thr : Nat}

theorem fromBig_digits (hR : Good R) (h1 : 1 ≤ thr) (h64 : R.radix ^ thr ≤ 2 ^ 64) {st : State}
    (hst : st.error = false) {ds : List Nat} (hd : ∀ d ∈ ds, d < R.radix) :
    fromBig R thr (ds.map R.getChar) st = some (positional R.radix ds, st) :=
  (fromBig_spec hR h1 h64 st hst _).1 ds rfl hd

theorem fromBigSigned_reads (hR : Good R) (hS : DistinctSigns R) (h1 : 1 ≤ thr) (h64 : R.radix ^ thr ≤ 2 ^ 64)
    {st : State} (hst : st.error = false) {s : List Nat} {z : ℤ} (h : Signed R s z) :
    fromBigSigned R thr s st = some (z, st) := by
  cases h with
  | plain ds hne hd =>
    cases ds with
    | nil => exact absurd rfl hne
    | cons d ds =>
      have hlt := hd d (by simp)
      rw [List.map_cons]
      simp only [fromBigSigned, hS.neg d hlt, hS.pos d hlt, if_false]
      rw [← List.map_cons, fromBig_digits hR h1 h64 hst hd]; rfl
  | pos ds hd =>
    simp only [fromBigSigned, hS.pos_neg, if_false, if_true, fromBig_digits hR h1 h64 hst hd]; rfl
  | neg ds hd =>
    simp only [fromBigSigned, if_true, fromBig_digits hR h1 h64 hst hd]; rfl

theorem radix_cast_ne (hR : Good R) (n : Nat) : ((R.radix : ℚ) ^ n) ≠ 0 := by
  have := hR.two
  apply pow_ne_zero
  exact_mod_cast (by omega : R.radix ≠ 0)

theorem decimal_chars {s : List Nat} {q : ℚ} (h : Decimal R s q) {c : Nat} (hc : NotDigit R c)
    (hne : R.fracSign ≠ c) : c ∉ s := by
  cases h with
  | int ds hd => exact notDigit_not_mem hc hd
  | point a b ha hb =>
    intro hm
    rcases List.mem_append.1 hm with hm | hm
    · exact notDigit_not_mem hc ha hm
    · rcases List.mem_cons.1 hm with hm | hm
      · exact hne hm.symm
      · exact notDigit_not_mem hc hb hm

theorem fraction_chars {s : List Nat} {q : ℚ} (h : Fraction R s q) {c : Nat} (hc : NotDigit R c)
    (hne : R.fracSign ≠ c) (hne' : R.fracSep ≠ c) : c ∉ s := by
  induction h with
  | decimal h => exact decimal_chars h hc hne
  | div h _ _ ih =>
    intro hm
    rcases List.mem_append.1 hm with hm | hm
    · exact decimal_chars h hc hne hm
    · rcases List.mem_cons.1 hm with hm | hm
      · exact hne' hm.symm
      · exact ih hm

theorem signed_chars {s : List Nat} {z : ℤ} (h : Signed R s z) {c : Nat} (hc : NotDigit R c)
    (hne : R.posSign ≠ c) (hne' : R.negSign ≠ c) : c ∉ s := by
  cases h with
  | plain ds _ hd => exact notDigit_not_mem hc hd
  | pos ds hd =>
    intro hm
    rcases List.mem_cons.1 hm with hm | hm
    · exact hne hm.symm
    · exact notDigit_not_mem hc hd hm
  | neg ds hd =>
    intro hm
    rcases List.mem_cons.1 hm with hm | hm
    · exact hne' hm.symm
    · exact notDigit_not_mem hc hd hm

theorem fromDecimal_reads (hR : Good R) (hS : DistinctSigns R) (h1 : 1 ≤ thr) (h64 : R.radix ^ thr ≤ 2 ^ 64)
    {st : State} (hst : st.error = false) {s : List Nat} {q : ℚ} (h : Decimal R s q) :
    ∃ u st', fromDecimal R thr s st = some (u, st') ∧ uvalue u = q ∧ Finite u ∧ st'.error = false := by
  cases h with
  | int ds hd =>
    refine ⟨UFrac.ofNat (positional R.radix ds), st, ?_, ?_, ?_, hst⟩
    · rw [fromDecimal, splitFirst_none (notDigit_not_mem hS.frac hd)]
      simp only [fromBig_digits hR h1 h64 hst hd, Option.map_some]
    · simp [uvalue, UFrac.ofNat]
    · simp [Bigfloat.Spec.Finite, UFrac.ofNat]
  | point a b ha hb =>
    obtain ⟨st1, hs1, he1⟩ : ∃ st1 : State, st1 = { st with decimal := true } ∧ st1.error = false := ⟨_, rfl, hst⟩
    refine ⟨⟨positional R.radix a * R.radix ^ b.length + positional R.radix b, R.radix ^ b.length⟩,
      st1, ?_, ?_, ?_, he1⟩
    · rw [fromDecimal, splitFirst_mid _ (notDigit_not_mem hS.frac ha)]
      simp only
      rw [← hs1, fromBig_digits hR h1 h64 he1 ha]
      simp only [Option.bind_some, he1]
      rw [fromBig_digits hR h1 h64 he1 hb]
      simp [he1]
    · have := radix_cast_ne hR b.length
      simp only [uvalue]; push_cast; field_simp
    · have := hR.two
      have := Nat.pow_pos (a := R.radix) (n := b.length) (by omega)
      simp only [Bigfloat.Spec.Finite]; omega

theorem fromFraction_reads (hR : Good R) (hS : DistinctSigns R) (h1 : 1 ≤ thr) (h64 : R.radix ^ thr ≤ 2 ^ 64)
    {s : List Nat} {q : ℚ} (h : Fraction R s q) : ∀ {st : State}, st.error = false → ∀ fuel, s.length < fuel →
    ∃ u st', fromFraction R thr fuel s st = some (u, st') ∧ uvalue u = q ∧ Finite u ∧ st'.error = false := by
  induction h with
  | decimal h =>
    intro st hst fuel hf
    obtain ⟨f, rfl⟩ : ∃ f, fuel = f + 1 := ⟨fuel - 1, by omega⟩
    rw [fromFraction, splitFirst_none (decimal_chars h hS.sep hS.frac_sep)]
    exact fromDecimal_reads hR hS h1 h64 hst h
  | @div s t q p h ht hp ih =>
    intro st hst fuel hf
    obtain ⟨f, rfl⟩ : ∃ f, fuel = f + 1 := ⟨fuel - 1, by omega⟩
    rw [fromFraction, splitFirst_mid _ (decimal_chars h hS.sep hS.frac_sep)]
    obtain ⟨u, st1, e1, e2, e3, e4⟩ := fromDecimal_reads hR hS h1 h64 (st := { st with fractional := true }) hst h
    simp only
    rw [e1]
    simp only [Option.bind_some, e4]
    obtain ⟨v, st2, g1, g2, g3, g4⟩ := ih e4 f (by simp at hf; omega)
    rw [g1]
    simp only [Option.map_some, g4]
    obtain ⟨d1, d2⟩ := ufrac_div_correct u v e3 g3 (by rw [g2]; exact hp)
    exact ⟨u.div v, st2, rfl, by rw [d1, e2, g2], d2, g4⟩

theorem powFrac_correct (hR : Good R) (z : ℤ) : uvalue (powFrac R.radix z) = (R.radix : ℚ) ^ z ∧
    Finite (powFrac R.radix z) := by
  have h2 := hR.two
  have hpos := Nat.pow_pos (a := R.radix) (n := z.natAbs) (by omega)
  have hne := radix_cast_ne hR z.natAbs
  unfold powFrac
  split
  · next hz =>
    constructor
    · simp only [uvalue, UFrac.div, UFrac.ofNat]
      obtain ⟨n, hn⟩ : ∃ n : ℕ, z = -(n : ℤ) := ⟨z.natAbs, by omega⟩
      subst hn
      simp
    · simp only [Bigfloat.Spec.Finite, UFrac.div, UFrac.ofNat]; omega
  · next hz =>
    constructor
    · obtain ⟨n, hn⟩ : ∃ n : ℕ, z = (n : ℤ) := ⟨z.natAbs, by omega⟩
      subst hn
      simp [uvalue, UFrac.ofNat]
    · simp [Bigfloat.Spec.Finite, UFrac.ofNat]

theorem fromExponent_reads (hR : Good R) (hS : DistinctSigns R) (h1 : 1 ≤ thr) (h64 : R.radix ^ thr ≤ 2 ^ 64)
    {s : List Nat} {q : ℚ} (h : Reads R s q) : ∀ {st : State}, st.error = false → ∀ fuel, s.length < fuel →
    ∃ u st', fromExponent R thr fuel s st = some (u, st') ∧ uvalue u = q ∧ Finite u ∧ st'.error = false := by
  induction h with
  | @fraction s q h =>
    intro st hst fuel hf
    obtain ⟨f, rfl⟩ : ∃ f, fuel = f + 1 := ⟨fuel - 1, by omega⟩
    rw [fromExponent, splitLast_none (fraction_chars h hS.exp hS.frac_exp hS.sep_exp)]
    exact fromFraction_reads hR hS h1 h64 h hst _ (by omega)
  | @exp s e q z h he ih =>
    intro st hst fuel hf
    obtain ⟨f, rfl⟩ : ∃ f, fuel = f + 1 := ⟨fuel - 1, by omega⟩
    rw [fromExponent, splitLast_mid _ (signed_chars he hS.exp hS.pos_exp hS.neg_exp)]
    obtain ⟨st1, hs1, he1⟩ : ∃ st1 : State, st1 = { st with exponent := true } ∧ st1.error = false := ⟨_, rfl, hst⟩
    simp only
    rw [← hs1, fromBigSigned_reads hR hS h1 h64 he1 he]
    simp only [Option.bind_some, he1]
    obtain ⟨v, st2, g1, g2, g3, g4⟩ := ih he1 f (by simp at hf; omega)
    rw [g1]
    simp only [Option.map_some, g4]
    obtain ⟨p1, p2⟩ := powFrac_correct hR z
    obtain ⟨m1, m2⟩ := ufrac_mul_correct v (powFrac R.radix z) g3 p2
    exact ⟨_, st2, rfl, by rw [m1, g2, p1], m2, g4⟩

theorem fromFrac_reads (hR : Good R) (hS : DistinctSigns R) (h1 : 1 ≤ thr) (h64 : R.radix ^ thr ≤ 2 ^ 64)
    {s : List Nat} {q : ℚ} (h : Reads R s q) {st : State} (hst : st.error = false) :
    ∃ u st', fromFrac R thr s st = some (u, st') ∧ uvalue u = q ∧ Finite u ∧ st'.error = false :=
  fromExponent_reads hR hS h1 h64 h hst _ (by omega)

/-! ### completing denominators -/

theorem complementLoop_spec {i ic : Nat} (hi : 2 ≤ i) (den : Nat) : ∀ aret (exp : ℤ), 0 < den →
    ∃ den' k, complementLoop i ic den aret exp = some (den', aret * ic ^ k, exp - (k : ℕ)) ∧
      den = den' * i ^ k ∧ ¬ i ∣ den' := by
  induction den using Nat.strong_induction_on with
  | _ den ih =>
    intro aret exp hpos
    rw [complementLoop, if_neg (by omega)]
    by_cases hc : den / i ≠ 0 ∧ den % i = 0
    · have hlt : den / i < den := Nat.div_lt_self hpos (by omega)
      rw [if_pos hc, dif_pos hlt]
      obtain ⟨den', k, e1, e2, e3⟩ := ih _ hlt (aret * ic) (exp - 1) (Nat.pos_of_ne_zero hc.1)
      refine ⟨den', k + 1, ?_, ?_, e3⟩
      · rw [e1, pow_succ, show aret * ic * ic ^ k = aret * (ic ^ k * ic) by ring,
          show exp - 1 - (k : ℕ) = exp - ((k + 1 : ℕ) : ℤ) by push_cast; ring]
      · have : den / i * i = den := Nat.div_mul_cancel (Nat.dvd_of_mod_eq_zero hc.2)
        rw [e2] at this
        rw [← this, pow_succ]; ring
    · rw [if_neg hc]
      refine ⟨den, 0, by simp, by simp, ?_⟩
      intro hd
      apply hc
      refine ⟨?_, Nat.mod_eq_zero_of_dvd hd⟩
      have := Nat.div_pos (Nat.le_of_dvd hpos hd) (by omega)
      omega

theorem complementAll_spec {radix : Nat} (ps : List Nat) (hps : ∀ p ∈ ps, 2 ≤ p ∧ p ∣ radix) :
    ∀ den aret (exp : ℤ), 0 < den → ∃ den' aret' k, complementAll radix ps den aret exp =
      some (den', aret', exp - (k : ℕ)) ∧ den * aret' = den' * aret * radix ^ k ∧ 0 < den' ∧ den' ∣ den ∧
      ∀ p ∈ ps, ¬ p ∣ den' := by
  induction ps with
  | nil => intro den aret exp h; exact ⟨den, aret, 0, by simp [complementAll], by simp, h, dvd_rfl, by simp⟩
  | cons p ps ih =>
    intro den aret exp hpos
    obtain ⟨hp2, hpd⟩ := hps p (by simp)
    obtain ⟨d1, k1, e1, e2, e3⟩ := complementLoop_spec (ic := radix / p) hp2 den aret exp hpos
    have hd1 : 0 < d1 := by
      rcases Nat.eq_zero_or_pos d1 with h | h
      · rw [h] at e2; simp at e2; omega
      · exact h
    obtain ⟨d2, a2, k2, f1, f2, f3, f4, f5⟩ := ih (fun q hq => hps q (by simp [hq])) d1
      (aret * (radix / p) ^ k1) (exp - (k1 : ℕ)) hd1
    refine ⟨d2, a2, k1 + k2, ?_, ?_, f3, f4.trans ⟨_, e2⟩, ?_⟩
    · rw [complementAll, if_neg (by omega), e1]
      simp only
      rw [f1]; congr 3; push_cast; ring
    · have hpr : p ^ k1 * (radix / p) ^ k1 = radix ^ k1 := by
        rw [← mul_pow, Nat.mul_div_cancel' hpd]
      calc den * a2 = (d1 * a2) * p ^ k1 := by rw [e2]; ring
        _ = d2 * aret * (p ^ k1 * (radix / p) ^ k1) * radix ^ k2 := by rw [f2]; ring
        _ = d2 * aret * radix ^ (k1 + k2) := by rw [hpr, pow_add]; ring
    · intro q hq
      rcases List.mem_cons.1 hq with rfl | hq
      · intro h; exact e3 (h.trans f4)
      · exact f5 q hq

/-! ### writing fractions -/

theorem stripZeros_spec {R : Rep} (hr : 2 ≤ R.radix) (num : Nat) : ∀ (exp : ℤ), 0 < num → ∃ m k,
    stripZeros R num exp = some (m, exp + (k : ℕ)) ∧ num = m * R.radix ^ k ∧ 0 < m ∧ ¬ R.radix ∣ m := by
  induction num using Nat.strong_induction_on with
  | _ num ih =>
    intro exp hpos
    rw [stripZeros, if_neg (by omega), if_neg (by omega)]
    by_cases hm : num % R.radix = 0
    · have hlt : num / R.radix < num := Nat.div_lt_self hpos (by omega)
      rw [if_neg (by simpa using hm), dif_pos hlt]
      have hmul : num / R.radix * R.radix = num := Nat.div_mul_cancel (Nat.dvd_of_mod_eq_zero hm)
      have hq : 0 < num / R.radix := by
        rcases Nat.eq_zero_or_pos (num / R.radix) with h | h
        · rw [h] at hmul; omega
        · exact h
      obtain ⟨m, k, e1, e2, e3, e4⟩ := ih _ hlt (exp + 1) hq
      refine ⟨m, k + 1, ?_, ?_, e3, e4⟩
      · rw [e1]; congr 2; push_cast; ring
      · rw [e2] at hmul; rw [← hmul, pow_succ]; ring
    · rw [if_pos hm]
      exact ⟨num, 0, by simp, by simp, hpos, fun h => hm (Nat.mod_eq_zero_of_dvd h)⟩

theorem radixLoop_spec {R : Rep} (hr : 2 ≤ R.radix) (den : Nat) : ∀ (exp : ℤ), 0 < den → ∃ d k,
    radixLoop R den exp = some (d, exp - (k : ℕ)) ∧ den = d * R.radix ^ k ∧ 0 < d := by
  induction den using Nat.strong_induction_on with
  | _ den ih =>
    intro exp hpos
    rw [radixLoop, if_neg (by omega)]
    by_cases hc : den / R.radix ≠ 0 ∧ den % R.radix = 0
    · have hlt : den / R.radix < den := Nat.div_lt_self hpos (by omega)
      rw [if_pos hc, dif_pos hlt]
      obtain ⟨d, k, e1, e2, e3⟩ := ih _ hlt (exp - 1) (Nat.pos_of_ne_zero hc.1)
      refine ⟨d, k + 1, ?_, ?_, e3⟩
      · rw [e1]; congr 2; push_cast; ring
      · have : den / R.radix * R.radix = den := Nat.div_mul_cancel (Nat.dvd_of_mod_eq_zero hc.2)
        rw [e2] at this; rw [← this, pow_succ]; ring
    · rw [if_neg hc]
      exact ⟨den, 0, by simp, by simp, hpos⟩

theorem numeral_signed {s : List Nat} {n : Nat} (h : Numeral R s n) : Signed R s n := by
  obtain ⟨ds, rfl, h1, rfl, h2, _⟩ := h
  exact .plain ds h2 h1

theorem numeral_neg {s : List Nat} {n : Nat} (h : Numeral R s n) : Signed R (R.negSign :: s) (-(n : ℤ)) := by
  obtain ⟨ds, rfl, h1, rfl, h2, _⟩ := h
  exact .neg ds h1

theorem numeral_decimal {s : List Nat} {n : Nat} (h : Numeral R s n) : Decimal R s n := by
  obtain ⟨ds, rfl, h1, rfl, h2, _⟩ := h
  exact .int ds h1

theorem buildExpr_spec (hR : Good R) {s : List Nat} {n : Nat} (hs : Numeral R s n) (exp : ℤ) :
    ∃ t, buildExpr R s exp = some t ∧ Reads R t ((n : ℚ) * (R.radix : ℚ) ^ exp) := by
  have hr := hR.two
  unfold buildExpr
  by_cases hneg : exp < 0
  · rw [if_pos hneg]
    obtain ⟨es, e1, e2⟩ := toStringNative_spec hr exp.natAbs
    rw [toStringExp, e1]
    simp only [Option.map_some, if_pos hneg]
    refine ⟨_, rfl, ?_⟩
    split
    · have he := numeral_neg e2
      rw [show -((exp.natAbs : ℕ) : ℤ) = exp by omega] at he
      have := Reads.exp (.fraction (.decimal (numeral_decimal hs))) he
      simpa using this
    · obtain ⟨ds, rfl, hd, hv, hne, _⟩ := hs
      simp only [List.length_map]
      set nz := (-exp + 1 - (ds.length : ℤ)).toNat with hnz
      have hb : List.replicate nz (R.getChar 0) ++ ds.map R.getChar = (List.replicate nz 0 ++ ds).map R.getChar := by
        simp
      have hdig : ∀ d ∈ List.replicate nz 0 ++ ds, d < R.radix := by
        intro d h
        rcases List.mem_append.1 h with h | h
        · simp at h; omega
        · exact hd d h
      have hval : positional R.radix (List.replicate nz 0 ++ ds) = n := by
        rw [positional_replicate_zero, hv]
      have hlen : (List.replicate nz 0 ++ ds).length = nz + ds.length := by simp
      rw [hb]
      generalize List.replicate nz 0 ++ ds = bs at *
      simp only [List.length_map, hlen]
      set dot := (((nz + ds.length : ℕ) : ℤ) + exp).toNat with hdot
      have hle : dot + exp.natAbs = bs.length := by omega
      rw [← List.map_take, ← List.map_drop]
      have := Decimal.point (R := R) (bs.take dot) (bs.drop dot)
        (fun d h => hdig d (List.mem_of_mem_take h)) (fun d h => hdig d (List.mem_of_mem_drop h))
      have hlen' : (bs.drop dot).length = exp.natAbs := by rw [List.length_drop]; omega
      have e : ((n : ℚ) * (R.radix : ℚ) ^ exp) = positional R.radix (bs.take dot) +
          (positional R.radix (bs.drop dot) : ℚ) / (R.radix : ℚ) ^ (bs.drop dot).length := by
        rw [hlen', ← hval]
        conv_lhs => rw [← List.take_append_drop dot bs, positional_append, hlen']
        obtain ⟨k, hk⟩ : ∃ k : ℕ, exp = -(k : ℤ) := ⟨exp.natAbs, by omega⟩
        rw [hk]
        have := radix_cast_ne hR k
        simp only [Int.natAbs_neg, Int.natAbs_natCast, zpow_neg, zpow_natCast]
        push_cast
        field_simp
      rw [e]
      have r := Reads.fraction (Fraction.decimal this)
      simpa using r
  · rw [if_neg hneg]
    by_cases hpos : 0 < exp
    · rw [if_pos hpos, buildExprNat, if_neg (by omega)]
      obtain ⟨es, e1, e2⟩ := toStringNative_spec hr exp.toNat
      rw [e1]
      refine ⟨_, rfl, ?_⟩
      dsimp only
      split
      · have he := numeral_signed e2
        rw [show ((exp.toNat : ℕ) : ℤ) = exp by omega] at he
        have := Reads.exp (.fraction (.decimal (numeral_decimal hs))) he
        simpa using this
      · obtain ⟨ds, rfl, hd, hv, hne, _⟩ := hs
        have := Decimal.int (R := R) (ds ++ List.replicate exp.toNat 0) (by
          intro d h
          rcases List.mem_append.1 h with h | h
          · exact hd d h
          · simp at h; omega)
        rw [positional_append_zeros, hv] at this
        have e : ((n : ℚ) * (R.radix : ℚ) ^ exp) = ((n * R.radix ^ exp.toNat : ℕ) : ℚ) := by
          obtain ⟨k, hk⟩ : ∃ k : ℕ, exp = (k : ℤ) := ⟨exp.toNat, by omega⟩
          rw [hk]; simp
        rw [e]
        have r := Reads.fraction (Fraction.decimal this)
        simpa using r
    · rw [if_neg hpos]
      refine ⟨s, rfl, ?_⟩
      rw [show exp = 0 by omega]
      simpa using Reads.fraction (Fraction.decimal (numeral_decimal hs))

theorem toStringWithExp_spec (hR : Good R) (hr64 : R.radix < 2 ^ 64) {w : Nat} (hw : 0 < w) {num : Nat}
    (hn : 0 < num) (exp : ℤ) : ∃ t, toStringWithExp R w num exp = some t ∧
      Reads R t ((num : ℚ) * (R.radix : ℚ) ^ exp) := by
  obtain ⟨m, k, e1, e2, e3, e4⟩ := stripZeros_spec hR.two num exp hn
  obtain ⟨s, f1, f2⟩ := toStringBig_spec (R := R) hw hR.two hr64 m
  obtain ⟨t, g1, g2⟩ := buildExpr_spec hR f2 (exp + (k : ℕ))
  refine ⟨t, ?_, ?_⟩
  · rw [toStringWithExp, e1]; simp only [Option.bind_some, f1, g1]
  · have h0 : (R.radix : ℚ) ≠ 0 := by have := radix_cast_ne hR 1; simpa using this
    have : (num : ℚ) * (R.radix : ℚ) ^ exp = (m : ℚ) * (R.radix : ℚ) ^ (exp + (k : ℕ)) := by
      rw [e2, zpow_add₀ h0]; push_cast; rw [zpow_natCast]; ring
    rw [this]; exact g2

theorem toStringFrac_spec (hR : Good R) (hr64 : R.radix < 2 ^ 64) {w : Nat} (hw : 0 < w)
    (hps : ∀ p ∈ R.primes, 2 ≤ p ∧ p ∣ R.radix) {x : UFrac} (hx : Finite x) :
    ∃ s, toStringFrac R w x = some s ∧ Reads R s (uvalue x) := by
  obtain ⟨v1, _, v3⟩ := ufrac_simplify_correct x hx
  unfold toStringFrac
  simp only
  rw [← v1]
  generalize x.simplify = y at v3
  have hd : 0 < y.den := Nat.pos_of_ne_zero v3
  by_cases h0 : y.num = 0
  · rw [if_pos h0]
    refine ⟨_, rfl, ?_⟩
    have := Decimal.int (R := R) [0] (by have := hR.two; simp; omega)
    have r := Reads.fraction (Fraction.decimal this)
    simpa [uvalue, h0, positional] using r
  · rw [if_neg h0]
    by_cases h1 : y.den = 1
    · rw [if_pos h1]
      obtain ⟨t, e1, e2⟩ := toStringWithExp_spec hR hr64 hw (Nat.pos_of_ne_zero h0) 0
      exact ⟨t, e1, by simpa [uvalue, h1] using e2⟩
    · rw [if_neg h1]
      obtain ⟨d, k, e1, e2, e3⟩ := radixLoop_spec hR.two y.den 0 hd
      obtain ⟨d', c, k', f1, f2, f3, f4, f5⟩ := complementAll_spec R.primes hps d 1 (0 - (k : ℕ)) e3
      rw [e1]
      simp only [Option.bind_some, denominatorComplement]
      rw [f1]
      simp only [Option.bind_some]
      split
      · obtain ⟨sn, g1, g2⟩ := toStringBig_spec (R := R) hw hR.two hr64 y.num
        obtain ⟨sd, i1, i2⟩ := toStringBig_spec (R := R) hw hR.two hr64 y.den
        rw [g1, i1]
        refine ⟨_, rfl, ?_⟩
        have hne : (y.den : ℚ) ≠ 0 := by exact_mod_cast v3
        have := Reads.fraction (Fraction.div (numeral_decimal g2) (.decimal (numeral_decimal i2)) hne)
        simpa [uvalue] using this
      · next hd1 =>
        have hd1 : d' = 1 := by simpa using hd1
        have hc : 0 < c := by
          rcases Nat.eq_zero_or_pos c with h | h
          · rw [h, hd1] at f2
            have := Nat.pow_pos (a := R.radix) (n := k') (by have := hR.two; omega)
            simp at f2; omega
          · exact h
        obtain ⟨t, g1, g2⟩ := toStringWithExp_spec hR hr64 hw (Nat.mul_pos (Nat.pos_of_ne_zero h0) hc)
          (0 - (k : ℕ) - (k' : ℕ))
        refine ⟨t, g1, ?_⟩
        have e : uvalue y = ((y.num * c : ℕ) : ℚ) * (R.radix : ℚ) ^ ((0 : ℤ) - (k : ℕ) - (k' : ℕ)) := by
          have hr0 : (R.radix : ℚ) ≠ 0 := by have := radix_cast_ne hR 1; simpa using this
          have hk := radix_cast_ne hR k
          have hk' := radix_cast_ne hR k'
          have hden : (y.den : ℚ) ≠ 0 := by exact_mod_cast v3
          have key : ((y.den : ℕ) : ℚ) * c = (R.radix : ℚ) ^ k' * (R.radix : ℚ) ^ k := by
            have : y.den * c = R.radix ^ k' * R.radix ^ k := by
              rw [e2]
              calc d * R.radix ^ k * c = (d * c) * R.radix ^ k := by ring
                _ = R.radix ^ k' * R.radix ^ k := by rw [f2, hd1]; ring
            exact_mod_cast this
          rw [show ((0 : ℤ) - (k : ℕ) - (k' : ℕ)) = -((k + k' : ℕ) : ℤ) by push_cast; ring]
          rw [zpow_neg, zpow_natCast, pow_add, uvalue]
          push_cast
          field_simp
          rw [mul_comm ((R.radix : ℚ) ^ k) _, ← key]
        rw [e]; exact g2

end ELC.Numeral
