import Verif.Wide.Lemmas

namespace ELC.Wide

open Ubig.Spec (Stores)

/-! ### lemmas about `lehmer_gcd` on digit arrays -/

theorem shrink_zeros (n : Nat) : Ubig.shrink (List.replicate n 0) = [] := by
  induction n with
  | zero => rfl
  | succ n ih => rw [List.replicate_succ, Ubig.shrink, ih]; rfl

theorem mul_nil (w : Nat) (q : List Nat) : Ubig.mul w q [] = some [] := by
  unfold Ubig.mul
  rw [Ubig.fastMulAux, if_pos (by simp [Ubig.mulThreshold])]
  unfold Ubig.mulBase
  rw [if_neg (by simp)]
  simp only [Ubig.endZeros, List.drop_nil, Ubig.mulRows, Option.map_some, List.replicate_append_replicate]
  rw [shrink_zeros]

theorem sub_from_nil (w : Nat) (z : List Nat) : Ubig.sub w [] z = some [] := by
  cases z with
  | nil => rfl
  | cons d z =>
    have h : Ubig.cmp [] (d :: z) = .lt := by
      unfold Ubig.cmp
      rw [show compare ([] : List Nat).length (d :: z).length = .lt by rw [Nat.compare_eq_lt]; simp]
      rfl
    unfold Ubig.sub
    rw [if_pos h]

theorem sub_nil_right (w : Nat) : Ubig.sub w [1] [] = some [1] := rfl

/-- The inner loop ends with the identity or with the exchange, whatever the quotients are. -/
theorem lehmerInner_only {w : Nat} {cut : Nat → Nat} {fuel : Nat} {a b : List Nat}
    {r : List Nat × List Nat × List Nat × List Nat} (h : lehmerInner w cut fuel [1] [] [] [1] a b = some r) :
    r = ([1], [], [], [1]) ∨ r = ([], [1], [1], []) := by
  have second : ∀ (fuel : Nat) (a b : List Nat), lehmerInner w cut fuel [] [1] [1] [] a b = some r →
      r = ([1], [], [], [1]) ∨ r = ([], [1], [1], []) := by
    intro fuel a b h
    cases fuel with
    | zero => simp [lehmerInner] at h
    | succ fuel =>
      rw [lehmerInner] at h
      simp only [Option.bind_eq_bind, Option.bind_eq_some_iff] at h
      obtain ⟨_, _, _, _, q, _, _, _, _, _, q2, _, h⟩ := h
      split at h
      · injection h with h; exact Or.inr h.symm
      · simp only [Option.bind_eq_some_iff, mul_nil, sub_from_nil, Option.some.injEq] at h
        obtain ⟨_, _, A', rfl, _, rfl, B', hB, _, _, _, _, h⟩ := h
        rw [sub_nil_right] at hB
        injection hB with hB
        subst hB
        simp only [ne_eq, not_true_eq_false, if_false, Option.some.injEq] at h
        exact Or.inl h.symm
  cases fuel with
  | zero => simp [lehmerInner] at h
  | succ fuel =>
    rw [lehmerInner] at h
    simp only [Option.bind_eq_bind, Option.bind_eq_some_iff] at h
    obtain ⟨_, _, _, _, q, _, _, _, _, _, q2, _, h⟩ := h
    split at h
    · injection h with h; exact Or.inl h.symm
    · simp only [Option.bind_eq_some_iff, mul_nil, sub_from_nil, Option.some.injEq] at h
      obtain ⟨_, rfl, A', hA, _, _, B', rfl, _, _, _, _, h⟩ := h
      rw [sub_nil_right] at hA
      injection hA with hA
      subst hA
      rw [if_pos (by simp)] at h
      exact second _ _ _ h

theorem stores_one {w : Nat} (hw : 0 < w) : Stores w [1] 1 :=
  ⟨by intro d hd; simp at hd; subst hd; exact Nat.one_lt_two_pow (by omega), by intro d hd; simp at hd; omega,
    by simp [Ubig.Spec.val]⟩

theorem lehmerOuter_sound {w : Nat} {cut : Nat → Nat} (hw : 0 < w) : ∀ (fuel m : Nat) (a b r : List Nat) (x y : Nat),
    Stores w a x → Stores w b y → (x = 0 → y = 0) → lehmerOuter w cut fuel m a b = some r → Stores w r (Nat.gcd x y) := by
  intro fuel
  induction fuel with
  | zero => intro m a b r x y _ _ _ h; simp [lehmerOuter] at h
  | succ fuel ih =>
    intro m a b r x y ha hb h0 h
    rw [lehmerOuter] at h
    by_cases hz : a = [] ∨ b = []
    · rw [if_pos hz] at h
      injection h with h
      subst h
      have hy : y = 0 := by
        rcases hz with hz | hz
        · apply h0; subst hz; rw [← ha.3]; rfl
        · subst hz; rw [← hb.3]; rfl
      subst hy
      rwa [Nat.gcd_zero_right]
    · rw [if_neg hz, Option.bind_eq_some_iff] at h
      obtain ⟨t, h1, h2⟩ := h
      have hy : 0 < y := by
        rcases Nat.eq_zero_or_pos y with e | e
        · subst e; exact absurd (Or.inr (Ubig.eq_nil_of_val_zero hb.2 hb.3)) hz
        · exact e
      rcases lehmerInner_only h1 with e | e <;> subst e
      · rw [if_pos rfl, Option.bind_eq_some_iff] at h2
        obtain ⟨z, h3, h4⟩ := h2
        have := ih _ b z r y (x % y) hb (Ubig.mod_partial hw ha hb hy h3) (fun e => by omega) h4
        rwa [Nat.gcd_comm y, ← Nat.gcd_rec, Nat.gcd_comm] at this
      · rw [if_neg (by simp)] at h2
        simp only [Option.bind_eq_bind, Option.bind_eq_some_iff] at h2
        obtain ⟨p1, e1, p2, e2, x', e3, p3, e4, p4, e5, y', e6, h4⟩ := h2
        have s1 := Ubig.mul_partial (Ubig.stores_nil w) ha e1
        have s2 := Ubig.mul_partial (stores_one hw) hb e2
        have s3 := Ubig.mul_partial (stores_one hw) ha e4
        have s4 := Ubig.mul_partial (Ubig.stores_nil w) hb e5
        obtain ⟨r1, f1, t1⟩ := Ubig.add_correct s1 s2
        obtain ⟨r2, f2, t2⟩ := Ubig.add_correct s3 s4
        rw [e3] at f1
        rw [e6] at f2
        injection f1 with f1
        injection f2 with f2
        subst f1; subst f2
        rw [Nat.zero_mul, Nat.zero_add, Nat.one_mul] at t1
        rw [Nat.zero_mul, Nat.add_zero, Nat.one_mul] at t2
        have := ih _ x' y' r y x t1 t2 (fun e => by omega) h4
        rwa [Nat.gcd_comm]

theorem lehmerGcd_sound {k fuel : Nat} {cut : Nat → Nat} {a b r : List Nat} {x y : Nat} (ha : Stores (Bits.bitsOf k) a x)
    (hb : Stores (Bits.bitsOf k) b y) (hf : x + y + 1 < fuel) (h : lehmerGcd k cut fuel a b = some r) :
    Stores (Bits.bitsOf k) r (Nat.gcd x y) := by
  have key : ∀ (a b : List Nat) (x y : Nat), Stores (Bits.bitsOf k) a x → Stores (Bits.bitsOf k) b y → x + y + 1 < fuel →
      y ≤ x → (if b.length ≤ 1 then gcdLoop k fuel a b 0 else lehmerOuter (Bits.bitsOf k) cut fuel b.length a b) = some r →
      Stores (Bits.bitsOf k) r (Nat.gcd x y) := by
    intro a b x y ha hb hf hyx h
    split at h
    · obtain ⟨r', v, h1, h2, h3⟩ := gcdLoop_spec fuel a b x y 0 ha hb (by split <;> omega)
      have := Arith.binary_gcd_partial (x := x) (y := y) (by omega)
      unfold Arith.binaryGcd at this
      rw [this] at h3
      injection h3 with h3
      rw [h1] at h
      injection h with h
      subst h; subst h3
      exact h2
    · exact lehmerOuter_sound (Ubig.bitsOf_pos k) _ _ a b r x y ha hb (by omega) h
  unfold lehmerGcd at h
  dsimp only at h
  have hc := Ubig.cmp_val ha hb
  by_cases hlt : Ubig.cmp a b = .lt
  · rw [if_pos hlt] at h
    rw [hlt] at hc
    have := Nat.compare_eq_lt.1 hc.symm
    rw [Nat.gcd_comm]
    exact key b a y x hb ha (by omega) (by omega) h
  · rw [if_neg hlt] at h
    have : ¬ x < y := fun e => hlt (by rw [hc]; exact Nat.compare_eq_lt.2 e)
    exact key a b x y ha hb hf (by omega) h

end ELC.Wide
