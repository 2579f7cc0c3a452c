import Verif.Series.Pi

open Filter Finset Topology

namespace ELC.Series

/-- The state after `m` turns of the series. -/
structure OnSeries (p : Pi) (m : ℕ) : Prop where
  k : p.k = m
  k3 : p.k3 = 3 * m
  k6 : p.k6 = 6 * m
  sign : p.sign = !odd? m
  linear : p.linear = 545140134 * m + 13591409
  k3Factorial : p.k3Factorial = (3 * m).factorial
  k6Factorial : p.k6Factorial = (6 * m).factorial
  kFactorialPow3 : p.kFactorialPow3 = m.factorial ^ 3
  power : p.power = 640320 ^ (3 * m + 1)
  accurate : p.accurate = 14 * m
  result : p.result = -∑ j ∈ range m, (-1) ^ j * chudQ j
  sum : (m = 0 ∧ p.sum = 1 / 30) ∨ ∃ j, m = j + 1 ∧ |p.sum| = chudQ j

theorem chudQ_pos (k : ℕ) : 0 < chudQ k := by
  unfold chudQ
  positivity

theorem onSeries_start : OnSeries {} 0 := by
  constructor <;> simp [odd?]

theorem sign_eq (m : ℕ) {x : ℚ} (hx : 0 < x) : copyAsNegative x (!odd? m) = -((-1) ^ m * x) := by
  unfold copyAsNegative odd?
  rcases Nat.mod_two_eq_zero_or_one m with h | h
  · rw [Even.neg_one_pow (Nat.even_iff.mpr h)]; simp [h, abs_of_pos hx]
  · rw [Odd.neg_one_pow (Nat.odd_iff.mpr h)]; simp [h, abs_of_pos hx]

theorem onSeries_base {p : Pi} {m : ℕ} (h : OnSeries p m) : OnSeries p.baseIteration (m + 1) := by
  have hq : ((p.linear * p.k6Factorial : ℕ) : ℚ) / ((p.k3Factorial * p.kFactorialPow3 * p.power : ℕ) : ℚ) = chudQ m := by
    rw [h.linear, h.k6Factorial, h.k3Factorial, h.kFactorialPow3, h.power]; rfl
  have hs : p.baseIteration.sum = -((-1) ^ m * chudQ m) := by
    show copyAsNegative _ p.sign = _
    rw [hq, h.sign, sign_eq m (chudQ_pos m)]
  refine ⟨?_, ?_, ?_, ?_, ?_, ?_, ?_, ?_, ?_, ?_, ?_, ?_⟩
  · show p.k + 1 = _; rw [h.k]
  · show p.k3 + 1 + 1 + 1 = _; rw [h.k3]; ring
  · show p.k6 + 1 + 1 + 1 + 1 + 1 + 1 = _; rw [h.k6]; ring
  · show (!p.sign) = _; rw [h.sign, odd?_succ]
  · show p.linear + _ = _; rw [h.linear]; ring
  · show p.k3Factorial * (p.k3 + 1) * (p.k3 + 1 + 1) * (p.k3 + 1 + 1 + 1) = _
    rw [h.k3Factorial, h.k3, fact3]; ring
  · show p.k6Factorial * (p.k6 + 1) * (p.k6 + 1 + 1) * (p.k6 + 1 + 1 + 1) * (p.k6 + 1 + 1 + 1 + 1) *
      (p.k6 + 1 + 1 + 1 + 1 + 1) * (p.k6 + 1 + 1 + 1 + 1 + 1 + 1) = _
    rw [h.k6Factorial, h.k6, fact6]; ring
  · show p.kFactorialPow3 * (p.k + 1) ^ 3 = _
    rw [h.kFactorialPow3, h.k, Nat.factorial_succ]; ring
  · show p.power * _ = _
    rw [h.power, show 3 * (m + 1) + 1 = 3 * m + 1 + 3 by ring, pow_add _ (3 * m + 1) 3]
    norm_num
  · show p.accurate + 14 = _; rw [h.accurate]; ring
  · show p.result + p.baseIteration.sum = _
    rw [h.result, hs, sum_range_succ]; ring
  · refine Or.inr ⟨m, rfl, ?_⟩
    rw [hs, abs_neg, abs_mul, abs_pow, abs_neg, abs_one, one_pow, one_mul, abs_of_pos (chudQ_pos m)]

theorem onSeries_same {p q : Pi} {m : ℕ} (h : OnSeries p m) (r s ε : ℚ) (u : ℕ)
    (e : q = { p with root := r, saver := s, ε := ε, multiplier := u }) : OnSeries q m := by
  subst e
  exact ⟨h.k, h.k3, h.k6, h.sign, h.linear, h.k3Factorial, h.k6Factorial, h.kFactorialPow3, h.power, h.accurate, h.result,
    h.sum⟩

/-- The last summand is small only when the series is on its way. -/
theorem onSeries_small {p : Pi} {m : ℕ} (h : OnSeries p m) {ε : ℚ} (hε : ε < 1 / 30) (hs : |p.sum| ≤ ε) :
    0 < ε ∧ ∃ j, m = j + 2 ∧ chudQ (j + 1) ≤ ε := by
  rcases h.sum with ⟨_, h1⟩ | ⟨j, hj, h1⟩
  · rw [h1] at hs
    norm_num [abs_of_pos] at hs hε
    linarith
  · rw [h1] at hs
    refine ⟨lt_of_lt_of_le (chudQ_pos j) hs, ?_⟩
    rcases j with _ | j
    · have : chudQ 0 = 13591409 / 640320 := by norm_num [chudQ]
      rw [this] at hs
      norm_num at hs hε
      linarith
    · exact ⟨j, by omega, hs⟩

theorem baseLoop_mono : ∀ (n : ℕ) (p q : Pi), Pi.baseLoop n p = some q → Pi.baseLoop (n + 1) p = some q := by
  intro n
  induction n with
  | zero => intro p q h; cases h
  | succ n ih =>
    intro p q h
    rw [Pi.baseLoop] at h ⊢
    by_cases hs : |p.sum| > p.ε
    · rw [if_pos hs] at h ⊢; exact ih _ _ h
    · rw [if_neg hs] at h ⊢; exact h

theorem baseLoop_inv : ∀ (n : ℕ) (p q : Pi) (m : ℕ), OnSeries p m → Pi.baseLoop n p = some q →
    ∃ m', m ≤ m' ∧ OnSeries q m' ∧ |q.sum| ≤ q.ε ∧ q.ε = p.ε ∧ q.root = p.root ∧ q.saver = p.saver := by
  intro n
  induction n with
  | zero => intro p q m _ h; cases h
  | succ n ih =>
    intro p q m hp h
    rw [Pi.baseLoop] at h
    by_cases hs : |p.sum| > p.ε
    · rw [if_pos hs] at h
      obtain ⟨m', h1, h2, h3, h4, h5, h6⟩ := ih _ _ _ (onSeries_base hp) h
      exact ⟨m', by omega, h2, h3, h4, h5, h6⟩
    · rw [if_neg hs] at h
      obtain rfl := Option.some.inj h
      exact ⟨m, le_rfl, hp, not_lt.mp hs, rfl, rfl, rfl⟩

theorem chudQ_small {ε : ℚ} (hε : 0 < ε) : ∃ N, ∀ k, N ≤ k → chudQ k ≤ ε := by
  have hε' : (0 : ℝ) < ε := by exact_mod_cast hε
  obtain ⟨N, hN⟩ := eventually_atTop.mp (chud_tendsto.eventually (gt_mem_nhds hε'))
  refine ⟨N, fun k hk => ?_⟩
  have := (hN k hk).le
  rw [← chudQ_cast] at this
  exact_mod_cast this

theorem baseLoop_ends {p : Pi} {m : ℕ} (hp : OnSeries p m) (hε : 0 < p.ε) : ∃ n q, Pi.baseLoop n p = some q := by
  obtain ⟨N, hN⟩ := chudQ_small hε
  have : ∀ (d : ℕ) (p' : Pi) (m' : ℕ), OnSeries p' m' → p'.ε = p.ε → N + 1 ≤ m' + d → ∃ n q, Pi.baseLoop n p' = some q := by
    intro d
    induction d with
    | zero =>
      intro p' m' h1 h2 h3
      refine ⟨1, p', ?_⟩
      rw [Pi.baseLoop, if_neg]
      rcases h1.sum with ⟨h4, _⟩ | ⟨j, hj, h4⟩
      · omega
      · rw [h4, h2]; exact not_lt.mpr (hN j (by omega))
    | succ d ih =>
      intro p' m' h1 h2 h3
      by_cases hs : |p'.sum| > p'.ε
      · obtain ⟨n, q, hq⟩ := ih p'.baseIteration (m' + 1) (onSeries_base h1) h2 (by omega)
        exact ⟨n + 1, q, by rw [Pi.baseLoop, if_pos hs]; exact hq⟩
      · exact ⟨1, p', by rw [Pi.baseLoop, if_neg hs]⟩
  exact this (N + 1) p m hp rfl (by omega)

/-! ### All states -/

/-- What holds in every state. -/
structure Good (p : Pi) : Prop where
  ε_pos : 0 < p.ε
  ε_le : p.ε ≤ 1 / 30
  root_pos : 0 < p.root
  root_fifth : |(p.root : ℝ) - √640320| ≤ 1 / 5
  root_saver : |(p.root : ℝ) - √640320| ≤ p.saver
  series : ∃ m, OnSeries p m ∧ (p.ε < 1 / 30 → p.saver ≤ p.ε ∧ ∃ j, m = j + 2 ∧ chudQ (j + 1) ≤ p.ε)

theorem good_start : Good {} := by
  have h := root_bounds
  have e : |(((({} : Pi).root : ℚ)) : ℝ) - √640320| ≤ 1 / 5 := by
    rw [abs_le]
    constructor <;> norm_num <;> linarith [h.1, h.2]
  refine ⟨by norm_num, by norm_num, by norm_num, e, ?_, 0, onSeries_start, ?_⟩
  · refine e.trans (by norm_num)
  · intro h; norm_num at h

theorem chudQ_dec (k : ℕ) : chudQ (k + 1) ≤ chudQ k := by
  have := chud_dec k
  rw [← chudQ_cast, ← chudQ_cast] at this
  exact_mod_cast this

theorem good_base {p : Pi} (h : Good p) : Good p.baseIteration := by
  obtain ⟨m, h1, h2⟩ := h.series
  refine ⟨h.ε_pos, h.ε_le, h.root_pos, h.root_fifth, h.root_saver, m + 1, onSeries_base h1, fun hε => ?_⟩
  obtain ⟨h3, j, h4, h5⟩ := h2 hε
  exact ⟨h3, j + 1, by omega, (chudQ_dec _).trans h5⟩

theorem sqrt_step {p : ℚ} (hp : 0 < p) (h5 : |(p : ℝ) - √640320| ≤ 1 / 5) :
    |((sqrtIteration p 640320 : ℚ) : ℝ) - √640320| ≤ |(p : ℝ) - √640320| := by
  have hp' : (0 : ℝ) < (p : ℝ) := by exact_mod_cast hp
  rw [sqrtIteration_cast, show ((640320 : ℚ) : ℝ) = 640320 by norm_num, step_error hp' (by norm_num), ← sq_abs]
  have hb := root_bounds
  have h799 : 799 ≤ (p : ℝ) := by have := (abs_le.mp h5).1; linarith [hb.1]
  have hn := abs_nonneg ((p : ℝ) - √640320)
  rw [abs_of_nonneg (by positivity), div_le_iff₀ (by positivity)]
  nlinarith

theorem good_sqrt {p : Pi} (h : Good p) : Good p.sqrtIteration := by
  obtain ⟨m, h1, h2⟩ := h.series
  have hs := sqrt_step h.root_pos h.root_fifth
  have hp' : (0 : ℝ) < (p.root : ℝ) := by exact_mod_cast h.root_pos
  refine ⟨h.ε_pos, h.ε_le, ?_, hs.trans h.root_fifth, hs.trans h.root_saver, m, onSeries_same h1 _ _ _ _ rfl, h2⟩
  show 0 < sqrtIteration p.root 640320
  have := step_pos hp' (by norm_num : (0 : ℝ) ≤ ((640320 : ℚ) : ℝ))
  rw [← sqrtIteration_cast] at this
  exact_mod_cast this

theorem good_within {p q : Pi} {ε r : ℚ} {n : ℕ} (h : Good p) (hq : p.within ε n = some (q, r)) :
    Good q ∧ r = q.value ∧ q.ε ≤ ε := by
  unfold Pi.within at hq
  by_cases hε : ε < p.ε
  · rw [if_pos hε] at hq
    obtain ⟨m, h1, h2⟩ := h.series
    have hε30 : ε < 1 / 30 := lt_of_lt_of_le hε h.ε_le
    rcases hroot : p.betterRoot ε n with
      _ | ⟨root, saver⟩
    · rw [hroot] at hq; cases hq
    rw [hroot] at hq
    rcases hb : Pi.baseLoop n { p with root := root, saver := saver, ε := ε } with _ | q'
    · simp [hb] at hq
    simp [hb] at hq
    obtain ⟨rfl, rfl⟩ := hq
    obtain ⟨m', _, h4, h5, h6, h7, h8⟩ := baseLoop_inv _ _ _ m (onSeries_same h1 root saver ε p.multiplier rfl) hb
    have e6 : q'.ε = ε := h6
    have e7 : q'.root = root := h7
    have e8 : q'.saver = saver := h8
    rw [e6] at h5
    obtain ⟨hpos, hj⟩ := onSeries_small h4 hε30 h5
    have hr : 0 < root ∧ saver ≤ ε ∧ |(root : ℝ) - √640320| ≤ saver := by
      unfold Pi.betterRoot at hroot
      by_cases hs : p.saver > ε
      · rw [if_pos hs] at hroot
        obtain ⟨n', r, s, g1, g2, g3, g4, _⟩ := sqrt_loop (v := 640320) (by norm_num) hpos p.root p.saver h.root_pos
          (fun hc => absurd hs (not_lt.mpr hc))
        have u1 := gives_of_mono (f := fun n => sqrtToNewEps 640320 ε n p.root p.saver)
          (fun n r h => sqrtToNewEps_mono _ _ n _ _ r h) n hroot
        have u2 := gives_of_mono (f := fun n => sqrtToNewEps 640320 ε n p.root p.saver)
          (fun n r h => sqrtToNewEps_mono _ _ n _ _ r h) n' g1
        obtain ⟨rfl, rfl⟩ := Prod.mk.inj (gives_unique u1 u2)
        exact ⟨g2, g3, by simpa using g4⟩
      · rw [if_neg hs] at hroot
        obtain ⟨rfl, rfl⟩ := Prod.mk.inj (Option.some.inj hroot)
        exact ⟨h.root_pos, not_lt.mp hs, h.root_saver⟩
    refine ⟨⟨e6 ▸ hpos, e6 ▸ hε30.le, e7 ▸ hr.1, ?_, by rw [e7, e8]; exact hr.2.2, m', h4, fun _ => ?_⟩, rfl, e6.le⟩
    · rw [e7]
      refine hr.2.2.trans ?_
      have : saver ≤ 1 / 5 := hr.2.1.trans (hε30.le.trans (by norm_num))
      have : ((saver : ℚ) : ℝ) ≤ ((1 / 5 : ℚ) : ℝ) := by exact_mod_cast this
      refine this.trans (by norm_num)
    · rw [e6, e8]; exact ⟨hr.2.1, hj⟩
  · rw [if_neg hε] at hq
    obtain ⟨rfl, rfl⟩ := Prod.mk.inj (Option.some.inj hq)
    exact ⟨h, rfl, not_lt.mp hε⟩

theorem good_act {p q : Pi} {n : ℕ} {a : Pi.Action} (h : Good p) (ha : p.act n a = some q) : Good q := by
  cases a with
  | base => obtain rfl := Option.some.inj ha; exact good_base h
  | sqrt => obtain rfl := Option.some.inj ha; exact good_sqrt h
  | both =>
    obtain rfl := Option.some.inj ha
    unfold Pi.iteration
    dsimp only
    split_ifs
    · exact good_sqrt (good_base h)
    · exact good_base h
  | cleanUp => obtain rfl := Option.some.inj ha; exact h
  | plain =>
    obtain rfl := Option.some.inj ha
    unfold Pi.plain
    dsimp only
    split_ifs
    · exact good_base h
    · exact h
  | within ε =>
    change (p.within ε n).map (·.1) = some q at ha
    rcases hw : p.within ε n with _ | ⟨q', r⟩
    · rw [hw] at ha; cases ha
    · rw [hw] at ha
      obtain rfl := Option.some.inj ha
      exact (good_within h hw).1

theorem good_reach {p : Pi} (h : Reach p) : Good p := by
  induction h with
  | start => exact good_start
  | step n a _ ha ih => exact good_act ih ha

theorem within_mono (p : Pi) (ε : ℚ) (n : ℕ) (r : Pi × ℚ) (h : p.within ε n = some r) : p.within ε (n + 1) = some r := by
  unfold Pi.within at h ⊢
  by_cases hε : ε < p.ε
  · rw [if_pos hε] at h ⊢
    rcases hroot : p.betterRoot ε n with _ | x
    · rw [hroot] at h; cases h
    have hroot' : p.betterRoot ε (n + 1) = some x := by
      unfold Pi.betterRoot at hroot ⊢
      split_ifs at hroot ⊢
      · exact sqrtToNewEps_mono _ _ _ _ _ _ hroot
      · exact hroot
    rw [hroot] at h
    rw [hroot']
    rcases hb : Pi.baseLoop n { p with root := x.1, saver := x.2, ε := ε } with _ | q'
    · simp [hb] at h
    · simp [hb] at h
      simp [baseLoop_mono _ _ _ hb, h]
  · rw [if_neg hε] at h ⊢; exact h

theorem within_ends {p : Pi} (h : Good p) {ε : ℚ} (hε : 0 < ε) : ∃ q r, Gives (p.within ε) (q, r) := by
  obtain ⟨m, h1, _⟩ := h.series
  by_cases hlt : ε < p.ε
  · have hroot : ∃ n root saver, ∀ k, n ≤ k →
        p.betterRoot ε k = some (root, saver) := by
      unfold Pi.betterRoot
      by_cases hs : p.saver > ε
      · obtain ⟨n, r, s, g1, _⟩ := sqrt_loop (v := 640320) (by norm_num) hε p.root p.saver h.root_pos
          (fun hc => absurd hs (not_lt.mpr hc))
        obtain ⟨n', hn'⟩ := gives_of_mono (f := fun n => sqrtToNewEps 640320 ε n p.root p.saver)
          (fun n r h => sqrtToNewEps_mono _ _ n _ _ r h) n g1
        exact ⟨n', r, s, fun k hk => by rw [if_pos hs]; exact hn' k hk⟩
      · exact ⟨0, p.root, p.saver, fun k _ => by rw [if_neg hs]⟩
    obtain ⟨n, root, saver, hn⟩ := hroot
    obtain ⟨n', q, hq⟩ := baseLoop_ends (onSeries_same h1 root saver ε p.multiplier rfl) (p :=
      { p with root := root, saver := saver, ε := ε }) hε
    obtain ⟨n'', hn''⟩ := gives_of_mono (f := fun n => Pi.baseLoop n { p with root := root, saver := saver, ε := ε })
      (fun n r h => baseLoop_mono n _ r h) n' hq
    refine ⟨q, q.value, max n n'', fun k hk => ?_⟩
    unfold Pi.within
    rw [if_pos hlt, hn k (le_trans (le_max_left _ _) hk)]
    have := hn'' k (le_trans (le_max_right _ _) hk)
    simp at this
    simp [this]
  · exact ⟨p, p.value, 0, fun k _ => by unfold Pi.within; rw [if_neg hlt]⟩

/-! ### The value -/

theorem value_first {p : Pi} (h : OnSeries p 0) : p.value = p.root / 252 := by
  unfold Pi.value
  rw [h.accurate]
  norm_num

theorem value_cast {p : Pi} {m : ℕ} (h : OnSeries p (m + 1)) {S : ℝ}
    (hS : Tendsto (fun n => ∑ k ∈ range n, (-1 : ℝ) ^ k * chudnovskyTerm k) atTop (𝓝 S)) :
    ((p.value : ℚ) : ℝ) = p.root / (12 * ∑ k ∈ range (m + 1), (-1 : ℝ) ^ k * chudnovskyTerm k) := by
  have hr : ((p.result : ℚ) : ℝ) = -∑ k ∈ range (m + 1), (-1 : ℝ) ^ k * chudnovskyTerm k := by
    rw [h.result]
    push_cast
    simp only [chudQ_cast]
  have h21 := chud_partial hS (m + 1) (by omega)
  unfold Pi.value
  rw [h.accurate, if_pos (by omega)]
  push_cast
  rw [hr, abs_neg, abs_of_nonneg (by linarith), inv_div]

theorem value_error {p : Pi} {m : ℕ} (h : OnSeries p (m + 1)) {x : ℝ} (hx : IsChudnovsky x) :
    |((p.value : ℚ) : ℝ) - x| ≤ |(p.root : ℝ) - √640320| / 252 + chudnovskyTerm (m + 1) / 6 := by
  obtain ⟨S, hS, hp⟩ := hx
  have hSr := chud_S hS
  have hp' : x = √640320 / (12 * S) := by
    rw [one_div] at hp
    rw [← inv_inv x, hp, inv_div]
  have hR := chud_partial hS (m + 1) (by omega)
  have hE := chud_error hS (m + 1)
  rw [value_cast h hS, hp']
  generalize ∑ k ∈ range (m + 1), (-1 : ℝ) ^ k * chudnovskyTerm k = R at *
  have hσ := root_bounds
  have e : (p.root : ℝ) / (12 * R) - √640320 / (12 * S) =
      ((p.root : ℝ) - √640320) / (12 * R) + -(√640320 / (12 * R * S)) * (R - S) := by
    have : R ≠ 0 := by linarith
    have : S ≠ 0 := by linarith [hSr.1]
    field_simp
    ring
  rw [e]
  refine (abs_add_le _ _).trans (add_le_add ?_ ?_)
  · rw [abs_div, abs_of_pos (by linarith : 0 < 12 * R)]
    exact div_le_div_of_nonneg_left (abs_nonneg _) (by norm_num) (by linarith)
  · have hc : √640320 / (12 * R * S) ≤ 1 / 6 := by
      rw [div_le_div_iff₀ (by nlinarith [hSr.1]) (by norm_num)]
      nlinarith [hSr.1, hσ.2]
    have hc0 : 0 ≤ √640320 / (12 * R * S) := by
      apply div_nonneg (Real.sqrt_nonneg _); nlinarith [hSr.1]
    rw [abs_mul, abs_neg, abs_of_nonneg hc0]
    have := mul_le_mul hc hE (abs_nonneg _) (by norm_num)
    linarith

/-- The value in a state that is on its way. -/
theorem good_value {p : Pi} (h : Good p) (hs : p.ε < 1 / 30 ∨ p.accurate ≠ 0) {x : ℝ} (hx : IsChudnovsky x) :
    |((p.value : ℚ) : ℝ) - x| ≤ p.ε / 2 := by
  obtain ⟨m, h1, h2⟩ := h.series
  have hε0 : (0 : ℝ) < (p.ε : ℝ) := by exact_mod_cast h.ε_pos
  by_cases hlt : p.ε < 1 / 30
  · obtain ⟨h3, j, rfl, h5⟩ := h2 hlt
    have e := value_error h1 hx
    have h3' : (p.saver : ℝ) ≤ p.ε := by exact_mod_cast h3
    have h5' : chudnovskyTerm (j + 1) ≤ p.ε := by rw [← chudQ_cast]; exact_mod_cast h5
    have h6 := chud_dec (j + 1)
    have h7 := h.root_saver
    rw [show j + 1 + 1 = j + 2 by ring] at *
    linarith
  · have he : p.ε = 1 / 30 := le_antisymm h.ε_le (not_lt.mp hlt)
    have hacc : p.accurate ≠ 0 := hs.resolve_left hlt
    rw [h1.accurate] at hacc
    obtain ⟨m, rfl⟩ : ∃ k, m = k + 1 := ⟨m - 1, by omega⟩
    have e := value_error h1 hx
    have h7 := h.root_fifth
    have h8 : chudnovskyTerm (m + 1) ≤ 0.01 := by
      refine (chud_anti (by omega : 1 ≤ m + 1)).trans ?_
      rw [chud_one]; norm_num
    rw [he]
    push_cast
    linarith

theorem plain_act {p q : Pi} {n : ℕ} {a : Pi.Action} (hs : a ≠ .sqrt) (h : p.accurate ≠ 0 ∨ p.root = 800) (hg : Good p)
    (ha : p.act n a = some q) : q.accurate ≠ 0 ∨ q.root = 800 := by
  have hbase : ∀ p : Pi, p.baseIteration.accurate ≠ 0 := fun p => Nat.succ_ne_zero _
  cases a with
  | base => obtain rfl := Option.some.inj ha; exact Or.inl (hbase p)
  | sqrt => exact absurd rfl hs
  | both =>
    obtain rfl := Option.some.inj ha
    unfold Pi.iteration
    dsimp only
    split_ifs
    · exact Or.inl (hbase p)
    · exact Or.inl (hbase p)
  | cleanUp => obtain rfl := Option.some.inj ha; exact h
  | plain =>
    obtain rfl := Option.some.inj ha
    unfold Pi.plain
    dsimp only
    split_ifs
    · exact Or.inl (hbase p)
    · exact h
  | within ε =>
    change (p.within ε n).map (·.1) = some q at ha
    rcases hw : p.within ε n with _ | ⟨q', r⟩
    · rw [hw] at ha; cases ha
    rw [hw] at ha
    obtain rfl := Option.some.inj ha
    by_cases hε : ε < p.ε
    · have := good_within hg hw
      obtain ⟨m, h1, h2⟩ := this.1.series
      obtain ⟨_, j, rfl, _⟩ := h2 (lt_of_le_of_lt this.2.2 (lt_of_lt_of_le hε hg.ε_le))
      left
      show q'.accurate ≠ 0
      rw [h1.accurate]; omega
    · unfold Pi.within at hw
      rw [if_neg hε] at hw
      obtain ⟨rfl, rfl⟩ := Prod.mk.inj (Option.some.inj hw)
      exact h

theorem plain_reach {p : Pi} (h : ReachPlain p) : Reach p ∧ (p.accurate ≠ 0 ∨ p.root = 800) := by
  induction h with
  | start => exact ⟨.start, Or.inr rfl⟩
  | step n a _ hs ha ih => exact ⟨.step n a ih.1 ha, plain_act hs ih.2 (good_reach ih.1) ha⟩

end ELC.Series
