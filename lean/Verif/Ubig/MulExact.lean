import Verif.Ubig.Mul

/-! Exactly when the recursive multiplication runs past its buffer. -/

namespace ELC.Ubig

open Spec (val Stores NoLeadingZero)

/-- A merge fails exactly when the buffer was not enlarged and the sum does not fit it. -/
theorem offsetAdd_none {w : Nat} (hw : 0 < w) {buf b : List Nat} {off : Nat}
    (hbuf : Spec.Digits w buf) (hb : Spec.Digits w b) :
    offsetAdd w buf b off = none ↔
      off + b.length < buf.length ∧ (2 ^ w) ^ buf.length ≤ val w buf + (2 ^ w) ^ off * val w b := by
  by_cases hl : buf.length ≤ off + b.length
  · obtain ⟨r, hr⟩ := offsetAdd_isSome hw hbuf hb hl
    rw [hr]
    constructor
    · intro h; cases h
    · intro h; omega
  · have hv := val_take_drop w buf off (by omega)
    have hlt := val_lt (digits_take off hbuf)
    rw [List.length_take, Nat.min_eq_left (by omega)] at hlt
    have key : (2 ^ w) ^ buf.length ≤ val w buf + (2 ^ w) ^ off * val w b ↔
        (2 ^ w) ^ (buf.length - off) ≤ val w (buf.drop off) + val w b := by
      have e : (2 ^ w) ^ buf.length = (2 ^ w) ^ off * (2 ^ w) ^ (buf.length - off) := by
        rw [← pow_add]; congr 1; omega
      have e2 : val w buf + (2 ^ w) ^ off * val w b
          = val w (buf.take off) + (2 ^ w) ^ off * (val w (buf.drop off) + val w b) := by
        rw [hv]; ring
      rw [e, e2]
      generalize val w (buf.drop off) + val w b = s
      generalize (2 ^ w) ^ (buf.length - off) = t
      generalize (2 ^ w) ^ off = p at *
      generalize val w (buf.take off) = q at *
      constructor
      · intro h
        by_contra hc
        have : p * (s + 1) ≤ p * t := Nat.mul_le_mul_left _ (by omega)
        rw [Nat.mul_add] at this
        omega
      · intro h
        have : p * t ≤ p * s := Nat.mul_le_mul_left _ h
        omega
    rw [key]
    unfold offsetAdd
    simp only [hl, if_false, Option.map_eq_none_iff]
    constructor
    · intro h
      refine ⟨by omega, ?_⟩
      by_contra hc
      obtain ⟨r, hr⟩ := addInto_isSome (c := false) (digits_drop off hbuf) hb
        (by rw [List.length_drop]; omega)
        (by rw [List.length_drop]; simp only [Bool.toNat_false]; omega)
      rw [hr] at h; cases h
    · rintro ⟨_, h⟩
      cases hr : addInto w (buf.drop off) b false with
      | none => rfl
      | some r =>
        obtain ⟨h1, h2, h3⟩ := addInto_some (digits_drop off hbuf) hb hr
        have := val_lt h1
        rw [h2, h3, List.length_drop] at this
        simp only [Bool.toNat_false] at this
        omega

theorem length_lt_iff {w : Nat} {l : List Nat} {v n : Nat} (h : Stores w l v) :
    l.length ≤ n ↔ v < (2 ^ w) ^ n := by
  constructor
  · intro hl
    rw [← h.3]
    exact Nat.lt_of_lt_of_le (val_lt h.1) (Nat.pow_le_pow_right (pw w) hl)
  · intro hv
    exact length_le_of_val_lt h.2 (by rw [h.3]; exact hv)

/-- One level of the recursion. -/
theorem fastMulAux_none {w : Nat} (hw : 0 < w) (fuel : Nat) {a b : List Nat} {x y : Nat}
    (ha : Stores w a x) (hb : Stores w b y) (hge : 64 ≤ a.length ∧ 64 ≤ b.length)
    {s : Nat} (hs : s = splitPoint a.length b.length) {aH aL bH bL aS bS : List Nat}
    (hah : Stores w aH (x / (2 ^ w) ^ s)) (hal : Stores w aL (x % (2 ^ w) ^ s))
    (hbh : Stores w bH (y / (2 ^ w) ^ s)) (hbl : Stores w bL (y % (2 ^ w) ^ s))
    (has : Stores w aS (x / (2 ^ w) ^ s + x % (2 ^ w) ^ s))
    (hbs : Stores w bS (y / (2 ^ w) ^ s + y % (2 ^ w) ^ s))
    {h : Nat} (hh : x / (2 ^ w) ^ s * (y / (2 ^ w) ^ s) < (2 ^ w) ^ (h + 1))
    (hh' : (2 ^ w) ^ h ≤ x / (2 ^ w) ^ s * (y / (2 ^ w) ^ s)) :
    fastMulAux w (fuel + 1) a b = none ↔
      fastMulAux w fuel aH bH = none ∨ fastMulAux w fuel aL bL = none ∨
      fastMulAux w fuel aS bS = none ∨
      ((2 ^ w) ^ (2 * s + h + 1) ≤ x * y ∧
        x / (2 ^ w) ^ s * (y % (2 ^ w) ^ s) + x % (2 ^ w) ^ s * (y / (2 ^ w) ^ s)
          < (2 ^ w) ^ (s + h)) := by
  have hmin : ¬ min a.length b.length < mulThreshold := by simp only [mulThreshold]; omega
  obtain ⟨hsa, hsb, hs0, _⟩ := splitPoint_lt hge.1 hge.2
  rw [← hs] at hsa hsb hs0
  have eah : a.drop s = aH := stores_unique (stores_drop s ha) hah
  have ebh : b.drop s = bH := stores_unique (stores_drop s hb) hbh
  have eal : shrink (a.take s) = aL := stores_unique (stores_take s (by omega) ha) hal
  have ebl : shrink (b.take s) = bL := stores_unique (stores_take s (by omega) hb) hbl
  have eas : add w aH aL = some aS := by
    obtain ⟨r, hr, h1⟩ := add_stores hah hal
    rw [hr, stores_unique h1 has]
  have ebs : add w bH bL = some bS := by
    obtain ⟨r, hr, h1⟩ := add_stores hbh hbl
    rw [hr, stores_unique h1 hbs]
  simp only [fastMulAux, hmin, if_false, ← hs, eah, ebh, eal, ebl, eas, ebs, Option.bind_eq_bind,
    Option.bind_some]
  cases e1 : fastMulAux w fuel aH bH with
  | none => simp
  | some high =>
    cases e2 : fastMulAux w fuel aL bL with
    | none => simp
    | some low =>
      cases e3 : fastMulAux w fuel aS bS with
      | none => simp
      | some mid =>
        have s1 := fastMulAux_some fuel hah hbh e1
        have s2 := fastMulAux_some fuel hal hbl e2
        have s3 := fastMulAux_some fuel has hbs e3
        obtain ⟨hl, t6, s6⟩ := add_stores s1 s2
        obtain ⟨mid', t7, s7⟩ := sub_stores s3 s6
        rw [karatsuba_identity] at s7
        simp only [t6, t7, Option.bind_some, reduceCtorEq, false_or]
        have llow : low.length ≤ s * 2 := by
          rw [length_lt_iff s2, pow_mul, pow_two]
          exact Nat.mul_lt_mul'' (Nat.mod_lt _ (Nat.pow_pos (pw w)))
            (Nat.mod_lt _ (Nat.pow_pos (pw w)))
        obtain ⟨r, hr⟩ := offsetAdd_isSome hw s2.1 s1.1 (off := s * 2) (by omega)
        have s8 := offsetAdd_some s2.1 s1.1 hr
        rw [hr, Option.bind_some, offsetAdd_none hw s8.1 s7.1]
        rw [s2.3, s1.3] at s8
        have hlow : x % (2 ^ w) ^ s * (y % (2 ^ w) ^ s) < (2 ^ w) ^ (s * 2) := by
          rw [← length_lt_iff s2]; exact llow
        have rlen : r.length = 2 * s + h + 1 := by
          have up : r.length ≤ 2 * s + h + 1 := by
            rw [length_lt_iff s8, show 2 * s + h + 1 = s * 2 + (h + 1) by omega, pow_add]
            generalize (2 ^ w) ^ (s * 2) = p at *
            generalize (2 ^ w) ^ (h + 1) = q at *
            generalize x / (2 ^ w) ^ s * (y / (2 ^ w) ^ s) = u at *
            have : p * (u + 1) ≤ p * q := Nat.mul_le_mul_left _ hh
            rw [Nat.mul_add] at this
            omega
          have down : ¬ r.length ≤ 2 * s + h := by
            rw [length_lt_iff s8, show 2 * s + h = s * 2 + h by omega, pow_add]
            have : (2 ^ w) ^ (s * 2) * (2 ^ w) ^ h
              ≤ (2 ^ w) ^ (s * 2) * (x / (2 ^ w) ^ s * (y / (2 ^ w) ^ s)) :=
              Nat.mul_le_mul_left _ hh'
            omega
          omega
        have tot := karatsuba_total ((2 ^ w) ^ s) x y
        rw [← pow_mul (2 ^ w) s 2] at tot
        rw [s8.3, s7.3, rlen, tot]
        have : s + mid'.length < 2 * s + h + 1 ↔ mid'.length ≤ s + h := by omega
        rw [this, length_lt_iff s7]
        exact And.comm

end ELC.Ubig
