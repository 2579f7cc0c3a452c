import Verif.Arith.Model
import Verif.Arith.Spec
import Mathlib.Tactic.Ring
import Mathlib.Tactic.Linarith
import Mathlib.Data.Nat.Factors
import Mathlib.Data.Nat.GCD.Basic
import Mathlib.Data.Nat.Prime.Infinite
namespace ELC.Arith
open Spec

/-! ### logarithm -/

/-- The products that are formed are exact: of numbers up to `a` with levels below `a` or `b`, and the square of `b`. -/
def Exact (M a b : Nat) : Prop := M = 0 ∨ a * max (a - 1) b < M ∧ b * b < M

theorem exact_mul {M a b x y : Nat} (h : Exact M a b) (hx : x ≤ max a y) (hy : y ≤ max (a - 1) b) : x * y % M = x * y := by
  rcases h with rfl | ⟨h, h'⟩
  · exact Nat.mod_zero _
  · refine Nat.mod_eq_of_lt ?_
    by_cases hxa : x ≤ a
    · exact lt_of_le_of_lt (Nat.mul_le_mul hxa hy) h
    · exact lt_of_le_of_lt (Nat.mul_le_mul (by omega : x ≤ b) (by omega : y ≤ b)) h'

theorem exact_of_max {M a b : Nat} (ha : 1 ≤ a) (h : max a b * max a b < M) : Exact M a b :=
  Or.inr ⟨lt_of_le_of_lt (Nat.mul_le_mul (by omega) (by omega)) h, lt_of_le_of_lt (Nat.mul_le_mul (by omega) (by omega)) h⟩

theorem logLoop_spec {M a b lv num : Nat} (hb : 2 ≤ b) (hE : Exact M a b) (hlv : lv = b ^ num) (hnum : 1 ≤ num)
    (hlvle : lv ≤ max (a - 1) b) : ∀ (gap tester t aret : Nat), a - tester = gap → tester = b ^ t → tester ≤ a →
    ∃ F k, ∀ fuel ≥ F, logLoop M a lv num fuel tester aret = some (aret + k, b ^ (t + k)) ∧
      b ^ (t + k) ≤ a ∧ a < b ^ (t + k + num) := by
  intro gap
  induction gap using Nat.strongRecOn with
  | _ gap ih =>
    intro tester t aret hgap ht hle
    have hm : tester * lv % M = b ^ (t + num) := by
      rw [exact_mul hE (by omega) hlvle, ht, hlv, ← Nat.pow_add]
    by_cases hgt : b ^ (t + num) > a
    · refine ⟨1, 0, ?_⟩
      intro fuel hf
      obtain ⟨f, rfl⟩ : ∃ f, fuel = f + 1 := ⟨fuel - 1, by omega⟩
      refine ⟨?_, by simpa [← ht] using hle, by simpa using hgt⟩
      simp only [logLoop, hm, if_pos hgt, Nat.add_zero, ← ht]
    · have hlt : b ^ t < b ^ (t + num) := Nat.pow_lt_pow_right (by omega) (by omega)
      obtain ⟨F, k, h⟩ := ih (a - b ^ (t + num)) (by omega) (b ^ (t + num)) (t + num) (aret + num) rfl rfl (by omega)
      refine ⟨F + 1, num + k, ?_⟩
      intro fuel hf
      obtain ⟨f, rfl⟩ : ∃ f, fuel = f + 1 := ⟨fuel - 1, by omega⟩
      obtain ⟨h1, h2, h3⟩ := h f (by omega)
      refine ⟨?_, ?_, ?_⟩
      · simp only [logLoop, hm, if_neg hgt, h1]
        rw [Nat.add_assoc, Nat.add_assoc]
      · rw [← Nat.add_assoc]; exact h2
      · rw [← Nat.add_assoc]; exact h3

theorem logImpl_spec {M a b : Nat} (hb : 2 ≤ b) (hE : Exact M a b) :
    ∀ (gap lv num tester t : Nat), a - lv = gap → lv = b ^ num → 1 ≤ num → lv ≤ max (a - 1) b → tester = b ^ t → tester ≤ a →
    ∃ F k, ∀ fuel ≥ F, logImpl M a fuel tester lv num = some (k, b ^ (t + k)) ∧
      b ^ (t + k) ≤ a ∧ a < b ^ (t + k + num) := by
  intro gap
  induction gap using Nat.strongRecOn with
  | _ gap ih =>
    intro lv num tester t hgap hlv hnum hlvle ht hle
    have hnext : lv * lv % M = b ^ (num * 2) := by
      rw [exact_mul hE (by omega) hlvle, hlv, Nat.mul_two, Nat.pow_add]
    have hlt : b ^ num < b ^ (num * 2) := Nat.pow_lt_pow_right (by omega) (by omega)
    by_cases hn : b ^ (num * 2) < a
    · obtain ⟨F1, k1, h1⟩ := ih (a - b ^ (num * 2)) (by omega) (b ^ (num * 2)) (num * 2) tester t rfl rfl (by omega)
        (by omega) ht hle
      have hF1 := h1 F1 (Nat.le_refl _)
      obtain ⟨F2, k2, h2⟩ := logLoop_spec hb hE hlv hnum hlvle _ (b ^ (t + k1)) (t + k1) k1 rfl rfl hF1.2.1
      refine ⟨max F1 F2 + 1, k1 + k2, ?_⟩
      intro fuel hf
      obtain ⟨f, rfl⟩ : ∃ f, fuel = f + 1 := ⟨fuel - 1, by omega⟩
      obtain ⟨e1, _, _⟩ := h1 f (by omega)
      obtain ⟨e2, e3, e4⟩ := h2 f (by omega)
      refine ⟨?_, by rw [← Nat.add_assoc]; exact e3, by rw [← Nat.add_assoc]; exact e4⟩
      simp only [logImpl, hnext, if_pos hn, e1, Option.bind_some, e2]
      rw [Nat.add_assoc]
    · obtain ⟨F2, k2, h2⟩ := logLoop_spec hb hE hlv hnum hlvle _ tester t 0 rfl ht hle
      refine ⟨F2 + 1, k2, ?_⟩
      intro fuel hf
      obtain ⟨f, rfl⟩ : ∃ f, fuel = f + 1 := ⟨fuel - 1, by omega⟩
      obtain ⟨e2, e3, e4⟩ := h2 f (by omega)
      refine ⟨?_, e3, e4⟩
      simp only [logImpl, hnext, if_neg hn, Option.bind_some, e2, Nat.zero_add]

/-! ### powers and products -/

theorem powLoop_eq : ∀ (b a aret : Nat), powLoop a b aret = aret * a ^ b := by
  intro b
  induction b using Nat.strongRecOn with
  | _ b ih =>
    intro a aret
    rw [powLoop]
    by_cases h : b = 0
    · rw [dif_pos h, h]; simp
    · rw [dif_neg h, ih (b / 2) (by omega)]
      have hb : b = 2 * (b / 2) + b % 2 := (Nat.div_add_mod b 2).symm
      have hsq : (a * a) ^ (b / 2) = a ^ (2 * (b / 2)) := by rw [Nat.pow_mul, Nat.pow_two]
      rw [hsq]
      rcases Nat.mod_two_eq_zero_or_one b with h0 | h1
      · rw [if_neg (by omega)]
        rw [h0] at hb
        conv_rhs => rw [hb]
        rfl
      · rw [if_pos h1]
        rw [h1] at hb
        conv_rhs => rw [hb, Nat.pow_succ]
        ring

theorem rising_zero (s : Nat) : rising s 0 = 1 := by simp [rising]

theorem rising_succ (s n : Nat) : rising s (n + 1) = s * rising (s + 1) n := by
  unfold rising
  rw [Finset.prod_range_succ', Nat.mul_comm]
  congr 1
  apply Finset.prod_congr rfl
  intro i _
  omega

theorem rising_add (s m n : Nat) : rising s (m + n) = rising s m * rising (s + m) n := by
  unfold rising
  rw [Finset.prod_range_add]
  congr 1
  apply Finset.prod_congr rfl
  intro i _
  omega

theorem factLoop_eq (M : Nat) : ∀ (n start s : Nat), factLoop M start (start + n) (s % M) = s * rising start n % M := by
  intro n
  induction n with
  | zero => intro start s; rw [factLoop, dif_neg (by omega), rising_zero, Nat.mul_one]
  | succ n ih =>
    intro start s
    rw [factLoop, dif_pos (by omega), show start + (n + 1) = start + 1 + n by omega]
    have : s % M * start % M = (s * start) % M := by rw [Nat.mod_mul_mod]
    rw [this, ih, rising_succ, Nat.mul_assoc]

theorem factorial_eq (M : Nat) : ∀ (n start fuel : Nat), start + n < 2 ^ 32 → n + 1 < 2 ^ 32 → n < fuel →
    factorial M fuel n start = some (rising start n % M) := by
  intro n
  induction n using Nat.strongRecOn with
  | _ n ih =>
    intro start fuel hlt hn1 hf
    obtain ⟨f, rfl⟩ : ∃ f, fuel = f + 1 := ⟨fuel - 1, by omega⟩
    rw [factorial]
    by_cases h : n < 16
    · rw [if_pos h, Nat.mod_eq_of_lt hlt, factLoop_eq, Nat.one_mul]
    · rw [if_neg h]
      have h1 : (n + 1) % 2 ^ 32 = n + 1 := Nat.mod_eq_of_lt (by omega)
      simp only [h1]
      have h2 : (start + (n + 1) / 2) % 2 ^ 32 = start + (n + 1) / 2 := Nat.mod_eq_of_lt (by omega)
      rw [ih ((n + 1) / 2) (by omega) start f (by omega) (by omega) (by omega), h2,
        ih (n - (n + 1) / 2) (by omega) (start + (n + 1) / 2) f (by omega) (by omega) (by omega)]
      simp only [Option.bind_some, Option.map_some]
      rw [← Nat.mul_mod, ← rising_add, show (n + 1) / 2 + (n - (n + 1) / 2) = n by omega]

/-! ### gcd -/

theorem trailing_spec : ∀ n, n ≠ 0 → ∃ m, m % 2 = 1 ∧ n = 2 ^ trailing n * m := by
  intro n
  induction n using Nat.strongRecOn with
  | _ n ih =>
    intro hn
    rw [trailing, dif_neg hn]
    by_cases h : n % 2 = 1
    · rw [if_pos h]; exact ⟨n, h, by simp⟩
    · rw [if_neg h]
      obtain ⟨m, h1, h2⟩ := ih (n / 2) (by omega) (by omega)
      refine ⟨m, h1, ?_⟩
      rw [Nat.pow_succ, Nat.mul_comm (2 ^ _) 2, Nat.mul_assoc, ← h2]
      omega

theorem shift_trailing {n : Nat} (hn : n ≠ 0) : (n >>> trailing n) % 2 = 1 ∧ n = 2 ^ trailing n * (n >>> trailing n) := by
  obtain ⟨m, h1, h2⟩ := trailing_spec n hn
  have : n >>> trailing n = m := by
    rw [Nat.shiftRight_eq_div_pow]
    generalize trailing n = t at *
    rw [h2]
    exact Nat.mul_div_cancel_left _ (Nat.two_pow_pos _)
  rw [this]; exact ⟨h1, h2⟩

theorem gcd_two_pow_odd {i j x y : Nat} (hx : x % 2 = 1) (hy : y % 2 = 1) :
    Nat.gcd (2 ^ i * x) (2 ^ j * y) = 2 ^ min i j * Nat.gcd x y := by
  have hc : ∀ (z k : Nat), z % 2 = 1 → Nat.Coprime (2 ^ k) z := by
    intro z k hz
    apply Nat.Coprime.pow_left
    rw [Nat.coprime_two_left]
    exact Nat.odd_iff.2 hz
  rcases Nat.le_total i j with h | h
  · obtain ⟨d, rfl⟩ := Nat.exists_eq_add_of_le h
    rw [Nat.min_eq_left h, Nat.pow_add, Nat.mul_assoc, Nat.gcd_mul_left]
    congr 1
    exact Nat.Coprime.gcd_mul_left_cancel_right _ (hc x d hx)
  · obtain ⟨d, rfl⟩ := Nat.exists_eq_add_of_le h
    rw [Nat.min_eq_right h, Nat.pow_add, Nat.mul_assoc, Nat.gcd_mul_left]
    congr 1
    exact Nat.Coprime.gcd_mul_left_cancel _ (hc y d hy)

theorem gcd_sub_step {x y : Nat} (h : x ≤ y) : Nat.gcd (y - x) x = Nat.gcd x y := by
  rw [Nat.gcd_sub_self_left h, Nat.gcd_comm]

/-- One pass over two non-zero numbers. -/
theorem binary_step {x y : Nat} (hx : x ≠ 0) (hy : y ≠ 0) :
    Nat.gcd x y = 2 ^ min (trailing x) (trailing y) * Nat.gcd (x >>> trailing x) (y >>> trailing y) := by
  obtain ⟨h1, h2⟩ := shift_trailing hx
  obtain ⟨h3, h4⟩ := shift_trailing hy
  rw [← gcd_two_pow_odd h1 h3, ← h2, ← h4]

theorem trailing_odd {n : Nat} (h : n % 2 = 1) : trailing n = 0 := by
  rw [trailing, dif_neg (by omega), if_pos h]

/-- Whatever is delivered is right, unless the first number is zero and the second even with more trailing zeros than
`countr_zero(0)`. -/
theorem binaryLoop_sound (K : Kind) : ∀ (x y shift r : Nat), binaryLoop K x y shift = some r →
    (x ≠ 0 ∨ y % 2 = 1 ∨ y = 0 ∨ trailing y ≤ K.zeroCount) → r = (Nat.gcd x y * 2 ^ shift) % K.modulus := by
  intro x y shift
  fun_induction binaryLoop K x y shift with
  | case1 x shift =>
    intro r h _
    injection h with h
    rw [← h, Nat.gcd_zero_right, Nat.shiftLeft_eq]
  | case2 x y shift hy hok hlt ih =>
    intro r h hc
    have hyc : K.ctz y = trailing y := if_neg hy
    by_cases hx : x = 0
    · subst hx
      have hxz : K.ctz 0 = K.zeroCount := if_pos rfl
      have h0 : (0 : Nat) >>> K.ctz 0 = 0 := by simp
      rw [h0] at ih h hlt
      have := ih r h (Or.inr (Or.inr (Or.inl rfl)))
      rw [this, Nat.gcd_zero_right, Nat.sub_zero, Nat.gcd_zero_left]
      have hmin : min (K.ctz 0) (K.ctz y) = trailing y := by
        rw [hxz, hyc]
        rcases hc with h | h | h | h
        · exact absurd rfl h
        · rw [trailing_odd h]; simp
        · exact absurd h hy
        · exact Nat.min_eq_right h
      rw [hmin, hyc, Nat.pow_add]
      congr 1
      obtain ⟨_, h4⟩ := shift_trailing hy
      conv_rhs => rw [h4]
      ring
    · have hxc : K.ctz x = trailing x := if_neg hx
      rw [hxc, hyc] at ih h hlt
      have ho := (shift_trailing hx).1
      have := ih r h (Or.inr (Or.inl ho))
      rw [this, gcd_sub_step hlt.le, binary_step hx hy, Nat.pow_add]
      congr 1; ring
  | case3 x y shift hy hok hlt ih =>
    intro r h hc
    have hyc : K.ctz y = trailing y := if_neg hy
    by_cases hx : x = 0
    · subst hx
      exfalso
      apply hlt
      rw [hyc, Nat.zero_shiftRight]
      have ho := (shift_trailing hy).1
      generalize y >>> trailing y = z at *
      omega
    · have hxc : K.ctz x = trailing x := if_neg hx
      rw [hxc, hyc] at ih h hlt
      have ho := (shift_trailing hy).1
      have := ih r h (Or.inr (Or.inl ho))
      rw [this, gcd_sub_step (by omega), Nat.gcd_comm, binary_step hx hy, Nat.pow_add]
      congr 1; ring
  | case4 => intro r h; cases h

/-- With every shift defined a result is delivered. -/
theorem binaryLoop_total (K : Kind) (B : Nat) (hK : ∀ c, c ≤ B → K.shiftOk (K.ctz c) = true) : ∀ (x y shift : Nat),
    x ≤ B → y ≤ B → ∃ r, binaryLoop K x y shift = some r := by
  intro x y shift
  fun_induction binaryLoop K x y shift with
  | case1 x shift => intro _ _; exact ⟨_, rfl⟩
  | case2 x y shift hy hok hlt ih =>
    intro hx hy'
    have h1 := shiftRight_le' x (K.ctz x)
    have h2 := shiftRight_le' y (K.ctz y)
    generalize x >>> K.ctz x = u at *
    generalize y >>> K.ctz y = v at *
    exact ih (by omega) (by omega)
  | case3 x y shift hy hok hlt ih =>
    intro hx hy'
    have h1 := shiftRight_le' x (K.ctz x)
    have h2 := shiftRight_le' y (K.ctz y)
    generalize x >>> K.ctz x = u at *
    generalize y >>> K.ctz y = v at *
    exact ih (by omega) (by omega)
  | case4 x y shift hy hok =>
    intro hx hy'
    simp [hK x hx, hK y hy'] at hok

/-- With the shift of zero undefined nothing is delivered. -/
theorem binaryLoop_none (K : Kind) (hK : K.shiftOk K.zeroCount = false) : ∀ (x y shift : Nat), y ≠ 0 →
    binaryLoop K x y shift = none := by
  intro x y shift
  fun_induction binaryLoop K x y shift with
  | case1 x shift => intro h; exact absurd rfl h
  | case2 x y shift hy hok hlt ih =>
    intro _
    by_cases hx : x = 0
    · subst hx
      have : K.ctz 0 = K.zeroCount := if_pos rfl
      rw [this, hK] at hok
      simp at hok
    · apply ih
      have hxc : K.ctz x = trailing x := if_neg hx
      rw [hxc]
      have := (shift_trailing hx).1
      omega
  | case3 x y shift hy hok hlt ih =>
    intro _
    apply ih
    have hyc : K.ctz y = trailing y := if_neg hy
    rw [hyc]
    have := (shift_trailing hy).1
    omega
  | case4 => intro _; rfl

theorem trailing_lt {n w : Nat} (hn : n ≠ 0) (h : n < 2 ^ w) : trailing n < w := by
  obtain ⟨m, h1, h2⟩ := trailing_spec n hn
  by_contra hge
  have : 2 ^ w ≤ 2 ^ trailing n := Nat.pow_le_pow_right (by decide) (by omega)
  have h3 : 2 ^ trailing n ≤ 2 ^ trailing n * m := Nat.le_mul_of_pos_right _ (by omega)
  rw [← h2] at h3
  omega

theorem euclidean_spec : ∀ (y x : Nat), (x ≠ 0 ∨ y = 0) → euclideanGcd x y = some (Nat.gcd x y) := by
  intro y
  induction y using Nat.strongRecOn with
  | _ y ih =>
    intro x h
    rw [euclideanGcd]
    by_cases hy : y = 0
    · subst hy; simp
    · rw [dif_neg hy]
      have hx : x ≠ 0 := by rcases h with h | h; exact h; exact absurd h hy
      by_cases hlt : x < y
      · rw [dif_pos hlt, dif_neg hx, ih (y % x) (by have := Nat.mod_lt y (Nat.pos_of_ne_zero hx); omega) x (Or.inl hx),
          Nat.gcd_comm x (y % x), ← Nat.gcd_rec]
      · rw [dif_neg hlt, ih (x % y) (Nat.mod_lt _ (Nat.pos_of_ne_zero hy)) y (Or.inl hy), Nat.gcd_comm y (x % y), ← Nat.gcd_rec,
          Nat.gcd_comm]

theorem digits_le {W : Nat} : ∀ {k n : Nat}, n < W ^ k → digits W n ≤ k := by
  intro k
  induction k with
  | zero => intro n h; rw [digits, dif_pos (by rw [Nat.pow_zero] at h; omega)]
  | succ k ih =>
    intro n h
    rw [digits]
    split
    · omega
    · next h0 =>
      have : n / W < W ^ k := Nat.div_lt_of_lt_mul (by rw [Nat.pow_succ, Nat.mul_comm] at h; exact h)
      have := ih this
      omega

theorem digits_fits {W n : Nat} (h : n < W ^ (2 ^ 64 - 2)) : digits W n < 2 ^ 64 := by
  have h2 : 2 ^ 64 - 2 < 2 ^ 64 := by omega
  revert h h2
  generalize 2 ^ 64 - 2 = k
  generalize 2 ^ 64 = N
  intro h h2
  exact lt_of_le_of_lt (digits_le h) h2

/-- The inner loop ends with the identity or with the exchange, whatever the quotients are. -/
theorem lehmerInner_cases (quot : Nat → Nat → Nat) (fuel a b : Nat) :
    ∃ r, lehmerInner quot (fuel + 2) 1 0 0 1 a b = some r ∧ (r = (1, 0, 0, 1) ∨ r = (0, 1, 1, 0)) := by
  rw [lehmerInner]
  dsimp only
  by_cases h1 : quot (a + 1) (b + 0) = quot (a + 0) (b + 1)
  · rw [if_neg (by simpa using h1), if_pos (by decide), lehmerInner]
    dsimp only
    simp only [Nat.mul_zero, Nat.sub_zero, Nat.zero_sub, Nat.mul_one]
    split
    · exact ⟨_, rfl, Or.inr rfl⟩
    · rw [if_neg (by decide)]
      exact ⟨_, rfl, Or.inl rfl⟩
  · rw [if_pos (by simpa using h1)]
    exact ⟨_, rfl, Or.inl rfl⟩

theorem lehmerInner_only {quot : Nat → Nat → Nat} {fuel a b : Nat} {r : Nat × Nat × Nat × Nat}
    (h : lehmerInner quot fuel 1 0 0 1 a b = some r) : r = (1, 0, 0, 1) ∨ r = (0, 1, 1, 0) := by
  match fuel with
  | 0 => simp [lehmerInner] at h
  | 1 =>
    rw [lehmerInner] at h
    dsimp only at h
    split at h
    · injection h with h; exact Or.inl h.symm
    · simp [lehmerInner] at h
  | f + 2 =>
    obtain ⟨r', h1, h2⟩ := lehmerInner_cases quot f a b
    rw [h1] at h
    injection h with h
    rwa [h] at h2

/-- With everything shifted out it ends with the identity. -/
theorem lehmerInner_zero {quot : Nat → Nat → Nat} (h0 : quot 1 0 = quot 0 1) (fuel : Nat) :
    lehmerInner quot (fuel + 2) 1 0 0 1 0 0 = some (1, 0, 0, 1) := by
  rw [lehmerInner]
  dsimp only
  rw [if_neg (by simpa using h0), if_pos (by decide), lehmerInner]
  dsimp only
  simp only [Nat.mul_zero, Nat.sub_zero, Nat.zero_sub, Nat.mul_one, Nat.zero_add]
  rw [if_neg (by simpa using h0.symm), if_neg (by decide)]

/-- What a round does: a step of Euclid's algorithm or an exchange. -/
theorem lehmerOuter_step (W : Nat) (quot : Nat → Nat → Nat) (fuel m x y : Nat) (hx : x ≠ 0) (hy : y ≠ 0) :
    let m' := if m = 0 then 2 ^ 64 - 1 else m - 1
    lehmerOuter W quot (fuel + 3) m x y = lehmerOuter W quot (fuel + 2) m' y (x % y) ∨
      lehmerOuter W quot (fuel + 3) m x y = lehmerOuter W quot (fuel + 2) m' y x := by
  intro m'
  obtain ⟨r, h1, h2⟩ := lehmerInner_cases quot fuel (x / W ^ m') (y / W ^ m')
  rw [lehmerOuter]
  dsimp only
  rw [if_neg (by omega)]
  change ((lehmerInner quot (fuel + 2) 1 0 0 1 (x / W ^ m') (y / W ^ m')).bind _ = _) ∨ _
  rw [h1, Option.bind_some]
  rcases h2 with h2 | h2 <;> subst h2
  · left; rfl
  · right
    rw [if_neg (by decide)]
    simp only [Nat.zero_mul, Nat.one_mul, Nat.zero_add, Nat.add_zero]
    rfl

theorem lehmerOuter_euclid {W : Nat} {quot : Nat → Nat → Nat} (h0 : quot 1 0 = quot 0 1) (fuel m x y : Nat) (hx : x ≠ 0)
    (hy : y ≠ 0) (hlx : x < W ^ (if m = 0 then 2 ^ 64 - 1 else m - 1)) (hly : y < W ^ (if m = 0 then 2 ^ 64 - 1 else m - 1)) :
    lehmerOuter W quot (fuel + 3) m x y = lehmerOuter W quot (fuel + 2) (if m = 0 then 2 ^ 64 - 1 else m - 1) y (x % y) := by
  rw [lehmerOuter]
  dsimp only
  rw [if_neg (by omega), Nat.div_eq_of_lt hlx, Nat.div_eq_of_lt hly, lehmerInner_zero h0]
  rfl

/-- Whatever it delivers. -/
theorem lehmerOuter_sound {W : Nat} {quot : Nat → Nat → Nat} : ∀ (fuel m x y g : Nat), (x = 0 → y = 0) →
    lehmerOuter W quot fuel m x y = some g → g = Nat.gcd x y := by
  intro fuel
  induction fuel with
  | zero => intro m x y g _ h; simp [lehmerOuter] at h
  | succ f ih =>
    intro m x y g h0 h
    by_cases hz : x = 0 ∨ y = 0
    · rw [lehmerOuter, if_pos hz] at h
      injection h with h
      have : y = 0 := by rcases hz with hz | hz; exacts [h0 hz, hz]
      subst this; rw [Nat.gcd_zero_right]; exact h.symm
    · have hx : x ≠ 0 := fun e => hz (Or.inl e)
      have hy : y ≠ 0 := fun e => hz (Or.inr e)
      rw [lehmerOuter] at h
      dsimp only at h
      rw [if_neg hz, Option.bind_eq_some_iff] at h
      obtain ⟨r, h1, h2⟩ := h
      rcases lehmerInner_only h1 with e | e <;> subst e
      · rw [if_pos rfl] at h2
        have := ih _ y (x % y) g (fun e => absurd e hy) h2
        rw [this, Nat.gcd_comm y, ← Nat.gcd_rec, Nat.gcd_comm]
      · rw [if_neg (by decide)] at h2
        simp only [Nat.zero_mul, Nat.one_mul, Nat.zero_add, Nat.add_zero] at h2
        have := ih _ y x g (fun e => absurd e hy) h2
        rw [this, Nat.gcd_comm]

/-- It delivers: rounds that only exchange are ended by the shift count, which wraps around. -/
theorem lehmerOuter_ends {W : Nat} {quot : Nat → Nat → Nat} (hW : 0 < W) (h0 : quot 1 0 = quot 0 1) :
    ∀ (s m x y : Nat), x + y ≤ s → x < W ^ (2 ^ 64 - 2) → y < W ^ (2 ^ 64 - 2) → m < 2 ^ 64 →
    ∃ n, ∀ k, ∃ g, lehmerOuter W quot (n + k + 2) m x y = some g := by
  generalize hN : 2 ^ 64 = N
  have hN2 : 4 ≤ N := by omega
  intro s
  induction s with
  | zero =>
    intro m x y hs hlx hly hm
    exact ⟨1, fun k => ⟨x, by rw [show 1 + k + 2 = k + 2 + 1 by omega, lehmerOuter, if_pos (by omega)]⟩⟩
  | succ s ih =>
    have big : ∀ m x y, x + y ≤ s + 1 → x < W ^ (N - 2) → y < W ^ (N - 2) → m < N →
        (if m = 0 then N - 1 else m - 1) < N → x ≠ 0 → y ≠ 0 → y ≤ x →
        ∃ n, ∀ k, ∃ g, lehmerOuter W quot (n + k + 2) (if m = 0 then N - 1 else m - 1) y (x % y) = some g := by
      intro m x y hs hlx hly hm hm' hx hy hyx
      have hlt := Nat.mod_lt x (Nat.pos_of_ne_zero hy)
      exact ih _ y (x % y) (by omega) hly (lt_trans hlt hly) hm'
    have hmm : ∀ m, m < N → (if m = 0 then N - 1 else m - 1) < N := by intro m hm; split <;> omega
    intro m
    induction m with
    | zero =>
      intro x y hs hlx hly hm
      by_cases hx : x = 0
      · exact ⟨1, fun k => ⟨x, by rw [show 1 + k + 2 = k + 2 + 1 by omega, lehmerOuter, if_pos (by omega)]⟩⟩
      by_cases hy : y = 0
      · exact ⟨1, fun k => ⟨x, by rw [show 1 + k + 2 = k + 2 + 1 by omega, lehmerOuter, if_pos (by omega)]⟩⟩
      have hp : W ^ (N - 2) ≤ W ^ (N - 1) := Nat.pow_le_pow_right hW (by omega)
      have e1 := fun f => lehmerOuter_euclid (W := W) h0 f 0 x y hx hy (by rw [hN, if_pos rfl]; omega)
        (by rw [hN, if_pos rfl]; omega)
      simp only [hN, if_true] at e1
      by_cases hyx : y ≤ x
      · obtain ⟨n, hn⟩ := big 0 x y hs hlx hly hm (hmm _ hm) hx hy hyx
        refine ⟨n + 1, fun k => ?_⟩
        rw [show n + 1 + k + 2 = n + k + 3 by omega, e1]
        exact hn k
      · have hlt : x < y := by omega
        have e2 := fun f => lehmerOuter_euclid (W := W) h0 f (N - 1) y x hy hx
          (by rw [if_neg (by omega)]; exact hly) (by rw [if_neg (by omega)]; exact hlx)
        rw [if_neg (by omega)] at e2
        obtain ⟨n, hn⟩ := big (N - 1) y x (by omega) hly hlx (by omega) (hmm _ (by omega)) hy hx (by omega)
        rw [if_neg (by omega)] at hn
        refine ⟨n + 2, fun k => ?_⟩
        rw [show n + 2 + k + 2 = n + k + 1 + 3 by omega, e1, Nat.mod_eq_of_lt hlt,
          show n + k + 1 + 2 = n + k + 3 by omega, e2]
        exact hn k
    | succ m ihm =>
      intro x y hs hlx hly hm
      by_cases hx : x = 0
      · exact ⟨1, fun k => ⟨x, by rw [show 1 + k + 2 = k + 2 + 1 by omega, lehmerOuter, if_pos (by omega)]⟩⟩
      by_cases hy : y = 0
      · exact ⟨1, fun k => ⟨x, by rw [show 1 + k + 2 = k + 2 + 1 by omega, lehmerOuter, if_pos (by omega)]⟩⟩
      obtain ⟨n1, h1⟩ := ihm y x (by omega) hly hlx (by omega)
      have hd : ∃ n2, ∀ k, ∃ g, lehmerOuter W quot (n2 + k + 2) m y (x % y) = some g := by
        by_cases hyx : y ≤ x
        · have := big (m + 1) x y hs hlx hly hm (hmm _ hm) hx hy hyx
          rwa [if_neg (by omega), Nat.add_sub_cancel] at this
        · rw [Nat.mod_eq_of_lt (by omega)]
          exact ⟨n1, h1⟩
      obtain ⟨n2, h2⟩ := hd
      refine ⟨n1 + n2 + 1, fun k => ?_⟩
      rw [show n1 + n2 + 1 + k + 2 = n1 + n2 + k + 3 by omega]
      have := lehmerOuter_step W quot (n1 + n2 + k) (m + 1) x y hx hy
      dsimp only at this
      rw [if_neg (by omega), Nat.add_sub_cancel] at this
      rcases this with e | e
      · rw [e, show n1 + n2 + k + 2 = n2 + (n1 + k) + 2 by omega]; exact h2 _
      · rw [e, show n1 + n2 + k + 2 = n1 + (n2 + k) + 2 by omega]; exact h1 _

/-! ### primes -/

theorem noFactor_iff (a b : Nat) : ∀ c, noFactor a b c = true ↔ ∀ k, c + 6 * k ≤ b → ¬ (c + 6 * k ∣ a) ∧ ¬ (c + 6 * k + 2 ∣ a) := by
  intro c
  fun_induction noFactor a b c with
  | case1 c h hd =>
    constructor
    · intro h'; cases h'
    · intro h'
      have := h' 0 (by omega)
      simp only [Nat.mul_zero, Nat.add_zero, Nat.dvd_iff_mod_eq_zero] at this
      omega
  | case2 c h hd ih =>
    rw [ih]
    constructor
    · intro h' k hk
      cases k with
      | zero => simp only [Nat.mul_zero, Nat.add_zero, Nat.dvd_iff_mod_eq_zero]; omega
      | succ k =>
        have := h' k (by omega)
        rwa [show c + 6 + 6 * k = c + 6 * (k + 1) by ring] at this
    · intro h' k hk
      have := h' (k + 1) (by omega)
      rwa [show c + 6 * (k + 1) = c + 6 + 6 * k by ring] at this
  | case3 c h =>
    constructor
    · intro _ k hk; omega
    · intro _; rfl

theorem prime_mod_six {p : Nat} (hp : p.Prime) (h5 : 5 ≤ p) : p % 6 = 1 ∨ p % 6 = 5 := by
  have h2 : ¬ 2 ∣ p := fun h => by have := (Nat.prime_dvd_prime_iff_eq Nat.prime_two hp).1 h; omega
  have h3 : ¬ 3 ∣ p := fun h => by have := (Nat.prime_dvd_prime_iff_eq Nat.prime_three hp).1 h; omega
  omega

theorem noPreCheck_iff {root : Nat → Nat} (hr : Root root) {a : Nat} (h5 : 5 ≤ a) (h6 : a % 6 = 1 ∨ a % 6 = 5) :
    noPreCheck root a = true ↔ a.Prime := by
  unfold noPreCheck
  rw [noFactor_iff]
  obtain ⟨hr1, hr2⟩ := hr a h5
  constructor
  · intro h
    by_contra hnp
    have hp := Nat.minFac_prime (n := a) (by omega)
    have hd := Nat.minFac_dvd a
    have hsq := Nat.minFac_sq_le_self (by omega) hnp
    rw [Nat.pow_two] at hsq
    have hle : a.minFac ≤ root a := by
      by_contra hgt
      have : (root a + 1) * (root a + 1) ≤ a.minFac * a.minFac := Nat.mul_le_mul (by omega) (by omega)
      omega
    have hge : 5 ≤ a.minFac := by
      have h2 := hp.two_le
      by_contra hlt
      have hcases : a.minFac = 2 ∨ a.minFac = 3 ∨ a.minFac = 4 := by omega
      rcases hcases with h' | h' | h'
      · rw [h'] at hd; omega
      · rw [h'] at hd; omega
      · rw [h'] at hp; revert hp; decide
    rcases prime_mod_six hp hge with h1 | h1
    · have hk : 5 + 6 * ((a.minFac - 7) / 6) + 2 = a.minFac := by omega
      have := (h ((a.minFac - 7) / 6) (by omega)).2
      rw [hk] at this
      exact this hd
    · have hk : 5 + 6 * ((a.minFac - 5) / 6) = a.minFac := by omega
      have := (h ((a.minFac - 5) / 6) (by omega)).1
      rw [hk] at this
      exact this hd
  · intro hp k hk
    refine ⟨fun hd => ?_, fun hd => ?_⟩
    · rcases (Nat.dvd_prime hp).1 hd with h' | h' <;> omega
    · rcases (Nat.dvd_prime hp).1 hd with h' | h' <;> omega

theorem sqrt_root : Root Nat.sqrt := by
  intro a ha
  refine ⟨Nat.lt_succ_sqrt a, ?_⟩
  by_contra h
  have h1 : a - 2 ≤ Nat.sqrt a := by omega
  rw [Nat.le_sqrt] at h1
  obtain ⟨d, rfl⟩ := Nat.exists_eq_add_of_le ha
  rw [show 5 + d - 2 = d + 3 by omega] at h1
  nlinarith

/-- From a number `6k+5` upwards the search finds the next prime. -/
theorem upLoop_spec {root : Nat → Nat} (hr : Root root) {p : Nat} (hp : p.Prime) : ∀ (gap a : Nat), p - a = gap → 5 ≤ a →
    a % 6 = 5 → a ≤ p → (∀ q, q.Prime → a ≤ q → p ≤ q) → ∀ fuel, gap < fuel → upLoop root fuel a = some p := by
  intro gap
  induction gap using Nat.strongRecOn with
  | _ gap ih =>
    intro a hgap h5 h6 hle hmin fuel hf
    obtain ⟨f, rfl⟩ : ∃ f, fuel = f + 1 := ⟨fuel - 1, by omega⟩
    rw [upLoop]
    by_cases h1 : a.Prime
    · rw [if_pos ((noPreCheck_iff hr h5 (Or.inr h6)).2 h1)]
      have := hmin a h1 (Nat.le_refl _)
      congr 1; omega
    · rw [if_neg (fun h => h1 ((noPreCheck_iff hr h5 (Or.inr h6)).1 h))]
      by_cases h2 : (a + 2).Prime
      · rw [if_pos ((noPreCheck_iff hr (by omega) (Or.inl (by omega))).2 h2)]
        have := hmin (a + 2) h2 (by omega)
        have hpm := prime_mod_six hp (by omega)
        have : p ≠ a := fun h => h1 (h ▸ hp)
        congr 1; omega
      · rw [if_neg (fun h => h2 ((noPreCheck_iff hr (by omega) (Or.inl (by omega))).1 h))]
        have hpm := prime_mod_six hp (by omega)
        have hn1 : p ≠ a := fun h => h1 (h ▸ hp)
        have hn2 : p ≠ a + 2 := fun h => h2 (h ▸ hp)
        exact ih (p - (a + 6)) (by omega) (a + 6) rfl (by omega) (by omega) (by omega)
          (fun q hq hle' => hmin q hq (by omega)) f (by omega)

theorem exists_nextPrime (a : Nat) : ∃ p, NextPrime a p := by
  classical
  have hex : ∃ p, p.Prime ∧ a ≤ p := by
    obtain ⟨p, h1, h2⟩ := Nat.exists_infinite_primes a
    exact ⟨p, h2, h1⟩
  refine ⟨Nat.find hex, (Nat.find_spec hex).1, (Nat.find_spec hex).2, ?_⟩
  intro q h1 h2
  exact Nat.find_min' hex ⟨h1, h2⟩

/-- Every answer of the upward search is at least the start, and passes the test. -/
theorem upLoop_sound {root : Nat → Nat} : ∀ (fuel a r : Nat), upLoop root fuel a = some r →
    a ≤ r ∧ noPreCheck root r = true ∧ (r % 2 = a % 2) := by
  intro fuel
  induction fuel with
  | zero => intro a r h; simp [upLoop] at h
  | succ f ih =>
    intro a r h
    rw [upLoop] at h
    split at h
    · next h1 => injection h with h; subst h; exact ⟨Nat.le_refl _, h1, rfl⟩
    · split at h
      · next h1 => injection h with h; subst h; exact ⟨by omega, h1, by omega⟩
      · obtain ⟨e1, e2, e3⟩ := ih _ _ h
        exact ⟨by omega, e2, by omega⟩

theorem primeAtLeast_sound {root : Nat → Nat} {fuel a r : Nat} (h : primeAtLeast root fuel a = some r) :
    a ≤ r ∧ (4 ≤ a → noPreCheck root r = true ∧ r % 2 = 1) := by
  unfold primeAtLeast at h
  split at h
  · next h4 => injection h with h; subst h; exact ⟨Nat.le_refl _, by intro; omega⟩
  · next h4 =>
    split at h
    · next h1 => injection h with h; subst h; exact ⟨Nat.le_refl _, fun _ => ⟨h1.2, by omega⟩⟩
    · obtain ⟨e1, e2, e3⟩ := upLoop_sound _ _ _ h
      have hm : a % 6 < 6 := Nat.mod_lt _ (by decide)
      refine ⟨by split_ifs at e1 <;> omega, fun _ => ⟨e2, ?_⟩⟩
      rw [e3]
      split_ifs <;> omega

theorem downLoop_spec {root : Nat → Nat} (hr : Root root) {p : Nat} (hp : p.Prime) (h5 : 5 ≤ p) : ∀ (a : Nat), 7 ≤ a →
    a % 6 = 1 → p ≤ a → (∀ q, q.Prime → q ≤ a → q ≤ p) → downLoop root a = some p := by
  intro a
  induction a using Nat.strongRecOn with
  | _ a ih =>
    intro h7 h6 hle hmax
    rw [downLoop]
    have hpm := prime_mod_six hp h5
    by_cases h1 : a.Prime
    · rw [if_pos ((noPreCheck_iff hr (by omega) (Or.inl h6)).2 h1)]
      have := hmax a h1 (Nat.le_refl _)
      congr 1; omega
    · rw [if_neg (fun h => h1 ((noPreCheck_iff hr (by omega) (Or.inl h6)).1 h)), if_neg (by omega)]
      have hn1 : p ≠ a := fun h => h1 (h ▸ hp)
      by_cases h2 : (a - 2).Prime
      · rw [if_pos ((noPreCheck_iff hr (by omega) (Or.inr (by omega))).2 h2)]
        have := hmax (a - 2) h2 (by omega)
        congr 1; omega
      · rw [if_neg (fun h => h2 ((noPreCheck_iff hr (by omega) (Or.inr (by omega))).1 h))]
        have hn2 : p ≠ a - 2 := fun h => h2 (h ▸ hp)
        have h13 : 13 ≤ a := by
          by_contra hlt
          have : a = 7 := by omega
          subst this
          exact h1 (by decide)
        rw [dif_neg (by omega)]
        exact ih (a - 6) (by omega) (by omega) (by omega) (by omega) (fun q hq hle' => hmax q hq (by omega))

theorem exists_prevPrime {a : Nat} (h : 2 ≤ a) : ∃ p, PrevPrime a p := by
  classical
  have : ∀ n, 2 ≤ n → ∃ p, PrevPrime n p := by
    intro n
    induction n with
    | zero => intro h; omega
    | succ n ih =>
      intro hn
      by_cases hp : (n + 1).Prime
      · exact ⟨n + 1, hp, Nat.le_refl _, fun q _ h => h⟩
      · by_cases h2 : n = 1
        · subst h2; exact absurd Nat.prime_two hp
        · obtain ⟨p, h1, h2, h3⟩ := ih (by omega)
          refine ⟨p, h1, by omega, ?_⟩
          intro q hq hle
          have : q ≠ n + 1 := fun h => hp (h ▸ hq)
          exact h3 q hq (by omega)
  exact this a h

/-! ### factorisation -/

theorem divideOut_spec (i : Nat) : ∀ (m : Nat) (r : Nat × Nat), divideOut i m = some r →
    m = i ^ r.2 * r.1 ∧ ¬ i ∣ r.1 := by
  intro m
  fun_induction divideOut i m with
  | case1 m hd hg ih =>
    intro r h
    rw [Option.map_eq_some_iff] at h
    obtain ⟨r', h1, rfl⟩ := h
    obtain ⟨h2, h3⟩ := ih r' h1
    refine ⟨?_, h3⟩
    have : m = i * (m / i) := by
      have := Nat.div_add_mod m i
      rw [hd] at this; omega
    rw [Nat.pow_succ, Nat.mul_comm (i ^ r'.2), Nat.mul_assoc, ← h2, ← this]
  | case2 => intro r h; cases h
  | case3 m hd =>
    intro r h
    injection h with h; subst h
    exact ⟨by simp, fun h' => hd (Nat.mod_eq_zero_of_dvd h')⟩

theorem divideOut_total {i m : Nat} (hi : 1 < i) (hm : 0 < m) : ∃ r, divideOut i m = some r := by
  fun_induction divideOut i m with
  | case1 m hd hg ih =>
    have hpos : 0 < m / i := Nat.div_pos (Nat.le_of_dvd hg.2 (Nat.dvd_of_mod_eq_zero hd)) (by omega)
    obtain ⟨r, hr⟩ := ih hpos
    exact ⟨_, by rw [hr]; rfl⟩
  | case2 m hd hg => exact absurd ⟨hi, hm⟩ hg
  | case3 m hd => exact ⟨_, rfl⟩

/-- The states of the factorisation loop: no prime factor of 6 is left once `i` has passed it, and `i` passed the test. -/
def LoopInv (root : Nat → Nat) (i m : Nat) : Prop :=
  i = 2 ∨ (i = 3 ∧ ¬ 2 ∣ m) ∨ (5 ≤ i ∧ noPreCheck root i = true ∧ ¬ 2 ∣ m ∧ ¬ 3 ∣ m)

theorem loopInv_prime {root : Nat → Nat} (hr : Root root) {i m : Nat} (h : LoopInv root i m) (hd : i ∣ m) : i.Prime := by
  rcases h with rfl | ⟨rfl, _⟩ | ⟨h5, hn, h2, h3⟩
  · exact Nat.prime_two
  · exact Nat.prime_three
  · have : ¬ 2 ∣ i := fun h => h2 (h.trans hd)
    have : ¬ 3 ∣ i := fun h => h3 (h.trans hd)
    exact (noPreCheck_iff hr h5 (by omega)).1 hn

theorem primeAbove_lt {root : Nat → Nat} {fuel i i' : Nat} (h : primeAbove root fuel i = some i') : i < i' := by
  have := (primeAtLeast_sound h).1
  omega

theorem loopInv_step {root : Nat → Nat} {fuel i m i' : Nat} {r : Nat × Nat} (hinv : LoopInv root i m)
    (h1 : divideOut i m = some r) (h2 : primeAbove root fuel i = some i') : LoopInv root i' r.1 := by
  obtain ⟨hm, hnd⟩ := divideOut_spec i m r h1
  have hdvd : ∀ p, p ∣ r.1 → p ∣ m := fun p h => by rw [hm]; exact h.mul_left _
  rcases hinv with rfl | ⟨rfl, hn2⟩ | ⟨h5, hn, hn2, hn3⟩
  · have : i' = 3 := by
      unfold primeAbove primeAtLeast at h2
      simp at h2; omega
    exact Or.inr (Or.inl ⟨this, hnd⟩)
  · have hs := primeAtLeast_sound h2
    have hodd := (hs.2 (by omega))
    exact Or.inr (Or.inr ⟨by omega, hodd.1, fun h => hn2 (hdvd _ h), hnd⟩)
  · have hs := primeAtLeast_sound h2
    have hodd := (hs.2 (by omega))
    exact Or.inr (Or.inr ⟨by omega, hodd.1, fun h => hn2 (hdvd _ h), fun h => hn3 (hdvd _ h)⟩)

theorem factorLoop_sound {root : Nat → Nat} (hr : Root root) : ∀ (fuel i m : Nat) (l : List Nat), LoopInv root i m →
    factorLoop root fuel i m = some l → l.prod = m ∧ (∀ p ∈ l, p.Prime ∧ i ≤ p) ∧ l.Pairwise (· ≤ ·) := by
  intro fuel
  induction fuel with
  | zero => intro i m l _ h; simp [factorLoop] at h
  | succ f ih =>
    intro i m l hinv h
    rw [factorLoop] at h
    split at h
    · next h1 => injection h with h; subst h; simp [h1]
    · rw [Option.bind_eq_some_iff] at h
      obtain ⟨r, h1, h⟩ := h
      rw [Option.bind_eq_some_iff] at h
      obtain ⟨i', h2, h⟩ := h
      rw [Option.map_eq_some_iff] at h
      obtain ⟨l', h3, rfl⟩ := h
      have hm := (divideOut_spec i m r h1).1
      obtain ⟨e1, e2, e3⟩ := ih i' r.1 l' (loopInv_step hinv h1 h2) h3
      have hlt := primeAbove_lt h2
      refine ⟨?_, ?_, ?_⟩
      · rw [List.prod_append, List.prod_replicate, e1, ← hm]
      · intro p hp
        rcases List.mem_append.1 hp with hp | hp
        · rw [List.mem_replicate] at hp
          obtain ⟨hk, rfl⟩ := hp
          refine ⟨loopInv_prime hr hinv ?_, Nat.le_refl _⟩
          rw [hm]
          exact (dvd_pow_self _ hk).mul_right _
        · have := e2 p hp
          exact ⟨this.1, by omega⟩
      · rw [List.pairwise_append]
        refine ⟨List.pairwise_replicate.2 (Or.inr (Nat.le_refl _)), e3, ?_⟩
        intro a ha b hb
        rw [List.mem_replicate] at ha
        have := e2 b hb
        omega

theorem uniqueLoop_sound {root : Nat → Nat} (hr : Root root) : ∀ (fuel i m : Nat) (l : List Nat), LoopInv root i m →
    uniqueLoop root fuel i m = some l → (∀ p, p ∈ l ↔ p.Prime ∧ p ∣ m) ∧ (∀ p ∈ l, i ≤ p) ∧ l.Pairwise (· < ·) := by
  intro fuel
  induction fuel with
  | zero => intro i m l _ h; simp [uniqueLoop] at h
  | succ f ih =>
    intro i m l hinv h
    rw [uniqueLoop] at h
    split at h
    · next h1 =>
      injection h with h; subst h
      refine ⟨?_, by simp, List.Pairwise.nil⟩
      intro p
      subst h1
      constructor
      · intro h; cases h
      · rintro ⟨h1, h2⟩
        rw [Nat.dvd_one] at h2
        exact absurd h2 h1.one_lt.ne'
    · rw [Option.bind_eq_some_iff] at h
      obtain ⟨r, h1, h⟩ := h
      rw [Option.bind_eq_some_iff] at h
      obtain ⟨i', h2, h⟩ := h
      rw [Option.map_eq_some_iff] at h
      obtain ⟨l', h3, rfl⟩ := h
      obtain ⟨hm, hnd⟩ := divideOut_spec i m r h1
      obtain ⟨e1, e2, e3⟩ := ih i' r.1 l' (loopInv_step hinv h1 h2) h3
      have hlt := primeAbove_lt h2
      by_cases hk : r.2 = 0
      · rw [if_pos hk]
        rw [hk, Nat.pow_zero, Nat.one_mul] at hm
        refine ⟨fun p => by rw [hm]; exact e1 p, fun p hp => by have := e2 p hp; omega, e3⟩
      · rw [if_neg hk]
        have hip : i.Prime := loopInv_prime hr hinv (by rw [hm]; exact (dvd_pow_self _ hk).mul_right _)
        refine ⟨?_, ?_, ?_⟩
        · intro p
          rw [List.mem_cons, e1]
          constructor
          · rintro (rfl | ⟨hp, hd⟩)
            · exact ⟨hip, by rw [hm]; exact (dvd_pow_self _ hk).mul_right _⟩
            · exact ⟨hp, by rw [hm]; exact hd.mul_left _⟩
          · rintro ⟨hp, hd⟩
            rw [hm] at hd
            rcases (Nat.Prime.dvd_mul hp).1 hd with hd | hd
            · left
              exact (Nat.prime_dvd_prime_iff_eq hp hip).1 (hp.dvd_of_dvd_pow hd)
            · exact Or.inr ⟨hp, hd⟩
        · intro p hp
          rcases List.mem_cons.1 hp with rfl | hp
          · exact Nat.le_refl _
          · have := e2 p hp; omega
        · rw [List.pairwise_cons]
          exact ⟨fun p hp => by have := e2 p hp; omega, e3⟩

end ELC.Arith

namespace ELC.Arith
open Spec

/-! ### the factorisation loop on small numbers -/

/-- The values the loop variable takes, up to 131. -/
def visited : List Nat :=
  [2, 3, 5, 7, 11, 13, 17, 19, 23, 27, 29, 31, 37, 41, 43, 47, 51, 53, 57, 59, 61, 67, 71, 73, 79, 83, 87, 89, 93, 97, 101, 103,
    107, 109, 113, 117, 127, 131]

theorem upLoop_small {root : Nat → Nat} (hs : ∀ a < 200, root a = Nat.sqrt a) : ∀ (fuel a r : Nat), r < 190 →
    (upLoop root fuel a = some r ↔ upLoop Nat.sqrt fuel a = some r) := by
  intro fuel
  induction fuel with
  | zero => intro a r _; simp [upLoop]
  | succ f ih =>
    intro a r hr
    by_cases ha : a < 190
    · have h1 : noPreCheck root a = noPreCheck Nat.sqrt a := by unfold noPreCheck; rw [hs a (by omega)]
      have h2 : noPreCheck root (a + 2) = noPreCheck Nat.sqrt (a + 2) := by unfold noPreCheck; rw [hs (a + 2) (by omega)]
      rw [upLoop, upLoop, h1, h2]
      split
      · exact Iff.rfl
      · split
        · exact Iff.rfl
        · exact ih (a + 6) r hr
    · constructor
      · intro h; have := (upLoop_sound _ _ _ h).1; omega
      · intro h; have := (upLoop_sound _ _ _ h).1; omega

theorem primeAbove_small {root : Nat → Nat} (hs : ∀ a < 200, root a = Nat.sqrt a) {fuel a r : Nat} (ha : a < 150) (hr : r < 190) :
    primeAbove root fuel a = some r ↔ primeAbove Nat.sqrt fuel a = some r := by
  unfold primeAbove primeAtLeast
  have h1 : noPreCheck root (a + 1) = noPreCheck Nat.sqrt (a + 1) := by unfold noPreCheck; rw [hs (a + 1) (by omega)]
  rw [h1]
  split
  · exact Iff.rfl
  · split
    · exact Iff.rfl
    · exact upLoop_small hs _ _ _ hr

theorem upLoop_mono {root : Nat → Nat} : ∀ (fuel k a r : Nat), upLoop root fuel a = some r → upLoop root (fuel + k) a = some r := by
  intro fuel
  induction fuel with
  | zero => intro k a r h; simp [upLoop] at h
  | succ f ih =>
    intro k a r h
    rw [show f + 1 + k = f + k + 1 by omega]
    rw [upLoop] at h ⊢
    split at h
    · next h1 => rw [if_pos h1]; exact h
    · next h1 =>
      rw [if_neg h1]
      split at h
      · next h2 => rw [if_pos h2]; exact h
      · next h2 => rw [if_neg h2]; exact ih k _ _ h

theorem primeAbove_mono {root : Nat → Nat} {fuel k a r : Nat} (h : primeAbove root fuel a = some r) :
    primeAbove root (fuel + k) a = some r := by
  unfold primeAbove primeAtLeast at *
  split at h
  · next h1 => rw [if_pos h1]; exact h
  · next h1 =>
    rw [if_neg h1]
    split at h
    · next h2 => rw [if_pos h2]; exact h
    · next h2 => rw [if_neg h2]; exact upLoop_mono _ _ _ _ h

theorem primeAbove_det {root : Nat → Nat} {f g a r s : Nat} (h : primeAbove root f a = some r) (h' : primeAbove root g a = some s) :
    r = s := by
  have h1 := primeAbove_mono (k := g) h
  have h2 := primeAbove_mono (k := f) h'
  rw [Nat.add_comm g f, h1] at h2
  injection h2

theorem visited_next : ∀ j < 37, primeAbove Nat.sqrt 3 (visited[j]!) = some (visited[j + 1]!) := by decide +kernel
theorem visited_last : primeAbove Nat.sqrt 3 131 = some 139 := by decide +kernel
theorem visited_bounds : ∀ j < 38, 2 ≤ visited[j]! ∧ visited[j]! ≤ 131 ∧ 137 % visited[j]! ≠ 0 := by decide +kernel
theorem visited_gap : ∀ j < 37, ∀ q < visited[j + 1]!, visited[j]! < q → ∃ d < q, 2 ≤ d ∧ q % d = 0 := by decide +kernel
theorem visited_gap_last : ∀ q < 137, 131 < q → ∃ d < q, 2 ≤ d ∧ q % d = 0 := by decide +kernel

theorem not_prime_of_dvd {q : Nat} (h : ∃ d < q, 2 ≤ d ∧ q % d = 0) : ¬ q.Prime := by
  rintro hp
  obtain ⟨d, h1, h2, h3⟩ := h
  rcases (Nat.dvd_prime hp).1 (Nat.dvd_of_mod_eq_zero h3) with h | h <;> omega

/-- What is left after the passes for the visited values. -/
theorem smooth_step {i m : Nat} {r : Nat × Nat} (h1 : divideOut i m = some r) (hm : 0 < m)
    (hp : ∀ q, q.Prime → q ∣ m → i ≤ q ∧ q < 137) :
    0 < r.1 ∧ ∀ q, q.Prime → q ∣ r.1 → i < q ∧ q < 137 := by
  obtain ⟨e1, e2⟩ := divideOut_spec _ _ _ h1
  refine ⟨Nat.pos_of_ne_zero (fun h => e2 (h ▸ dvd_zero _)), ?_⟩
  intro q hq hd
  have := hp q hq (by rw [e1]; exact hd.mul_left _)
  have hne : q ≠ i := fun h => e2 (h ▸ hd)
  omega

/-- Both variants of the loop end. -/
theorem smooth_returns {root : Nat → Nat} (hs : ∀ a < 200, root a = Nat.sqrt a) : ∀ (n j m : Nat), j + n = 37 → 0 < m →
    (∀ q, q.Prime → q ∣ m → visited[j]! ≤ q ∧ q < 137) → ∀ fuel, n + 5 ≤ fuel →
    (∃ l, factorLoop root fuel (visited[j]!) m = some l) ∧ (∃ l, uniqueLoop root fuel (visited[j]!) m = some l) := by
  intro n
  induction n with
  | zero =>
    intro j m hj hm hp fuel hf
    have : j = 37 := by omega
    subst this
    obtain ⟨f, rfl⟩ : ∃ f, fuel = f + 2 := ⟨fuel - 2, by omega⟩
    have hv : visited[37]! = 131 := by decide
    rw [hv] at hp ⊢
    rw [factorLoop, uniqueLoop]
    by_cases h1 : m = 1
    · rw [if_pos h1, if_pos h1]; exact ⟨⟨_, rfl⟩, ⟨_, rfl⟩⟩
    · rw [if_neg h1, if_neg h1]
      obtain ⟨r, hr⟩ := divideOut_total (i := 131) (by decide) hm
      obtain ⟨e1, e2⟩ := smooth_step hr hm hp
      have h139 : primeAbove root (f + 1) 131 = some 139 := by
        rw [primeAbove_small hs (by decide) (by decide)]
        have := primeAbove_mono (k := f + 1 - 3) visited_last
        rwa [show 3 + (f + 1 - 3) = f + 1 by omega] at this
      have hr1 : r.1 = 1 := by
        by_contra hne
        have hq := Nat.minFac_prime hne
        have := e2 _ hq (Nat.minFac_dvd _)
        exact not_prime_of_dvd (visited_gap_last _ this.2 this.1) hq
      rw [hr]
      simp only [Option.bind_some, h139, hr1]
      rw [factorLoop, uniqueLoop, if_pos rfl, if_pos rfl]
      exact ⟨⟨_, rfl⟩, ⟨_, rfl⟩⟩
  | succ n ih =>
    intro j m hj hm hp fuel hf
    obtain ⟨f, rfl⟩ : ∃ f, fuel = f + 1 := ⟨fuel - 1, by omega⟩
    rw [factorLoop, uniqueLoop]
    by_cases h1 : m = 1
    · rw [if_pos h1, if_pos h1]; exact ⟨⟨_, rfl⟩, ⟨_, rfl⟩⟩
    · rw [if_neg h1, if_neg h1]
      have hb := visited_bounds j (by omega)
      have hb' := visited_bounds (j + 1) (by omega)
      obtain ⟨r, hr⟩ := divideOut_total (i := visited[j]!) (by omega) hm
      obtain ⟨e1, e2⟩ := smooth_step hr hm hp
      have hnext : primeAbove root f (visited[j]!) = some (visited[j + 1]!) := by
        rw [primeAbove_small hs (by omega) (by omega)]
        have := primeAbove_mono (k := f - 3) (visited_next j (by omega))
        rwa [show 3 + (f - 3) = f by omega] at this
      rw [hr]
      simp only [Option.bind_some, hnext]
      obtain ⟨⟨l1, h1⟩, ⟨l2, h2⟩⟩ := ih (j + 1) r.1 (by omega) e1 (by
        intro q hq hd
        have := e2 q hq hd
        refine ⟨?_, this.2⟩
        by_contra hlt
        exact not_prime_of_dvd (visited_gap j (by omega) q (by omega) this.1) hq) f (by omega)
      rw [h1, h2]
      exact ⟨⟨_, rfl⟩, ⟨_, rfl⟩⟩

theorem divideOut_skip {i m : Nat} (h : m % i ≠ 0) : divideOut i m = some (m, 0) := by
  rw [divideOut, if_neg h]

/-- Once past 137 without having divided by it, the loop does not end. -/
theorem stuck_above {root : Nat → Nat} : ∀ (fuel i : Nat), 138 ≤ i →
    factorLoop root fuel i 137 = none ∧ uniqueLoop root fuel i 137 = none := by
  intro fuel
  induction fuel with
  | zero => intro i _; exact ⟨rfl, rfl⟩
  | succ f ih =>
    intro i hi
    rw [factorLoop, uniqueLoop, if_neg (by decide), if_neg (by decide),
      divideOut_skip (by rw [Nat.mod_eq_of_lt (by omega)]; decide)]
    simp only [Option.bind_some]
    cases h : primeAbove root f i with
    | none => exact ⟨rfl, rfl⟩
    | some i' =>
      have := primeAbove_lt h
      obtain ⟨h1, h2⟩ := ih i' (by omega)
      simp [h1, h2]

theorem stuck {root : Nat → Nat} (hs : ∀ a < 200, root a = Nat.sqrt a) : ∀ (fuel j : Nat), j < 38 →
    factorLoop root fuel (visited[j]!) 137 = none ∧ uniqueLoop root fuel (visited[j]!) 137 = none := by
  intro fuel
  induction fuel with
  | zero => intro i _; exact ⟨rfl, rfl⟩
  | succ f ih =>
    intro j hj
    have hb := visited_bounds j hj
    rw [factorLoop, uniqueLoop, if_neg (by decide), if_neg (by decide), divideOut_skip hb.2.2]
    simp only [Option.bind_some]
    cases h : primeAbove root f (visited[j]!) with
    | none => exact ⟨rfl, rfl⟩
    | some i' =>
      by_cases hl : j = 37
      · subst hl
        have h3 : primeAbove root 3 131 = some 139 := (primeAbove_small hs (by decide) (by decide)).2 visited_last
        have : i' = 139 := primeAbove_det h h3
        subst this
        obtain ⟨h1, h2⟩ := stuck_above (root := root) f 139 (by decide)
        simp [h1, h2]
      · have hb' := visited_bounds (j + 1) (by omega)
        have h3 := (primeAbove_small hs (by omega) (by omega)).2 (visited_next j (by omega))
        have : i' = visited[j + 1]! := primeAbove_det h h3
        subst this
        obtain ⟨h1, h2⟩ := ih (j + 1) (by omega)
        simp only [Option.bind_some, h1, h2, Option.map_none, and_self]

/-! ### digits -/

theorem digits_pow {W c : Nat} (hc : 0 < c) (hW : c < W) : ∀ m, digits W (c * W ^ m) = m + 1 := by
  intro m
  induction m with
  | zero =>
    rw [Nat.pow_zero, Nat.mul_one, digits, dif_neg (by omega), Nat.div_eq_of_lt hW, digits, dif_pos (Or.inl rfl)]
  | succ m ih =>
    have h0 : c * W ^ (m + 1) ≠ 0 := Nat.mul_ne_zero (by omega) (pow_ne_zero _ (by omega))
    rw [digits, dif_neg (by omega), Nat.pow_succ, ← Nat.mul_assoc, Nat.mul_div_cancel _ (by omega), ih]

end ELC.Arith
