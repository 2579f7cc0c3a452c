import Verif.Arith.Lemmas
import Mathlib.Logic.Relation
/-! When the factorisation ends. -/
namespace ELC.Arith
open Spec

theorem primeAbove_returns {root : Nat → Nat} {fuel i j : Nat} (h : primeAbove root fuel i = some j) :
    Returns (fun fuel => primeAbove root fuel i) j := by
  refine ⟨fuel, fun g hg => ?_⟩
  have := primeAbove_mono (k := g - fuel) h
  rwa [show fuel + (g - fuel) = g by omega] at this

/-- Powers of three pass the test, which looks at divisors `6k+5` and `6k+7` only. -/
theorem noFactor_three (k b : Nat) : ∀ n c, b + 1 - c = n → c % 6 = 5 → noFactor (3 ^ k) b c = true := by
  intro n
  induction n using Nat.strongRecOn with
  | _ n ih =>
    intro c hn hc
    have key : ∀ d, 1 < d → d % 3 ≠ 0 → 3 ^ k % d ≠ 0 := by
      intro d hd h3 hm
      have hdvd := Nat.dvd_of_mod_eq_zero hm
      obtain ⟨j, _, rfl⟩ := (Nat.dvd_prime_pow Nat.prime_three).1 hdvd
      cases j with
      | zero => simp at hd
      | succ j => exact h3 (by rw [Nat.pow_succ, Nat.mul_mod_left])
    rw [noFactor]
    split
    · rw [if_neg (by
        rintro (h | h)
        · exact key c (by omega) (by omega) h
        · exact key (c + 2) (by omega) (by omega) h)]
      exact ih (b + 1 - (c + 6)) (by omega) (c + 6) rfl (by omega)
    · rfl

theorem noPreCheck_three (root : Nat → Nat) (k : Nat) : noPreCheck root (3 ^ k) = true :=
  noFactor_three k _ _ 5 rfl rfl

theorem pow_three_mod (k : Nat) : 3 ^ (k + 1) % 6 = 3 := by
  induction k with
  | zero => rfl
  | succ k ih => rw [Nat.pow_succ]; omega

theorem upLoop_three (root : Nat → Nat) (k : Nat) : ∀ gap a, 3 ^ (k + 1) - a = gap → a % 6 = 1 → a ≤ 3 ^ (k + 1) → ∀ fuel, gap < fuel →
    ∃ r, upLoop root fuel a = some r := by
  intro gap
  induction gap using Nat.strongRecOn with
  | _ gap ih =>
    intro a hg h1 hle fuel hf
    have h3 := pow_three_mod k
    obtain ⟨f, rfl⟩ : ∃ f, fuel = f + 1 := ⟨fuel - 1, by omega⟩
    rw [upLoop]
    split
    · exact ⟨_, rfl⟩
    · next h =>
      split
      · exact ⟨_, rfl⟩
      · next h' =>
        have hn : 3 ^ (k + 1) ≠ a + 2 := fun he => h' (he ▸ noPreCheck_three root (k + 1))
        exact ih (3 ^ (k + 1) - (a + 6)) (by omega) (a + 6) rfl (by omega) (by omega) f (by omega)

theorem noPreCheck_passes (root : Nat → Nat) (x : Nat) : noPreCheck root x = true ↔ Passes root x := by
  unfold noPreCheck Passes
  rw [noFactor_iff]
  constructor <;> intro h k hk
  · have := h k (by omega)
    rwa [show 5 + 6 * k = 6 * k + 5 by omega] at this
  · have := h k (by omega)
    rwa [show 5 + 6 * k = 6 * k + 5 by omega]

/-- From `6k+1` the loop finds the first number `6k+1` or `6k+3` that passes. -/
theorem upLoop_one {root : Nat → Nat} : ∀ (fuel a r : Nat), a % 6 = 1 → upLoop root fuel a = some r →
    a ≤ r ∧ (r % 6 = 1 ∨ r % 6 = 3) ∧ Passes root r ∧ ∀ x, a ≤ x → x < r → (x % 6 = 1 ∨ x % 6 = 3) → ¬ Passes root x := by
  intro fuel
  induction fuel with
  | zero => intro a r _ h; simp [upLoop] at h
  | succ f ih =>
    intro a r h1 h
    rw [upLoop] at h
    split at h
    · next hp =>
      injection h with h; subst h
      exact ⟨Nat.le_refl _, .inl h1, (noPreCheck_passes _ _).1 hp, fun x _ _ => by omega⟩
    · next hp =>
      split at h
      · next hq =>
        injection h with h; subst h
        refine ⟨by omega, .inr (by omega), (noPreCheck_passes _ _).1 hq, fun x hx1 hx2 hx3 hx => ?_⟩
        have : x = a := by omega
        subst this
        exact hp ((noPreCheck_passes _ _).2 hx)
      · next hq =>
        obtain ⟨i1, i2, i3, i4⟩ := ih (a + 6) r (by omega) h
        refine ⟨by omega, i2, i3, fun x hx1 hx2 hx3 hx => ?_⟩
        by_cases h6 : a + 6 ≤ x
        · exact i4 x h6 hx2 hx3 hx
        · have : x = a ∨ x = a + 2 := by omega
          rcases this with rfl | rfl
          · exact hp ((noPreCheck_passes _ _).2 hx)
          · exact hq ((noPreCheck_passes _ _).2 hx)

/-- `get_prime_num_big_than` always ends. -/
theorem primeAbove_total {root : Nat → Nat} (hr : Root root) (i : Nat) : ∃ j, Returns (fun fuel => primeAbove root fuel i) j := by
  have key : ∃ fuel r, primeAbove root fuel i = some r := by
    unfold primeAbove primeAtLeast
    by_cases h4 : i + 1 < 4
    · exact ⟨0, _, if_pos h4⟩
    · by_cases h1 : (i + 1) % 6 = 1 ∧ noPreCheck root (i + 1) = true
      · exact ⟨0, _, by rw [if_neg h4, if_pos h1]⟩
      · by_cases h0 : (i + 1) % 6 ≠ 0
        · obtain ⟨p, hp1, hp2, hp3⟩ := exists_nextPrime (i + 1 + (5 - (i + 1) % 6))
          have := upLoop_spec hr hp1 (p - (i + 1 + (5 - (i + 1) % 6))) _ rfl (by omega) (by omega) hp2 hp3
            (p - (i + 1 + (5 - (i + 1) % 6)) + 1) (by omega)
          exact ⟨_, p, by rw [if_neg h4, if_neg h1, if_pos h0]; exact this⟩
        · have hle : i + 1 + 1 ≤ 3 ^ (i + 2 + 1) := by
            have : i + 2 + 1 < 3 ^ (i + 2 + 1) := Nat.lt_pow_self (by decide)
            omega
          obtain ⟨r, hr⟩ := upLoop_three root (i + 2) _ (i + 1 + 1) rfl (by omega) hle
            (3 ^ (i + 2 + 1) - (i + 1 + 1) + 1) (by omega)
          exact ⟨_, r, by rw [if_neg h4, if_neg h1, if_neg h0]; exact hr⟩
  obtain ⟨fuel, r, h⟩ := key
  exact ⟨r, primeAbove_returns h⟩

/-- The numbers the factorisation divides by, from `i` on. -/
def Visits (root : Nat → Nat) (i p : Nat) : Prop :=
  Relation.ReflTransGen (fun i j => Returns (fun fuel => primeAbove root fuel i) j) i p

theorem returns_lt {root : Nat → Nat} {i j : Nat} (h : Returns (fun fuel => primeAbove root fuel i) j) : i < j := by
  obtain ⟨F, hF⟩ := h
  exact primeAbove_lt (hF F (Nat.le_refl _))

theorem visits_le {root : Nat → Nat} {i p : Nat} (h : Visits root i p) : i ≤ p := by
  induction h with
  | refl => exact Nat.le_refl _
  | tail _ h2 ih => exact Nat.le_of_lt (Nat.lt_of_le_of_lt ih (returns_lt h2))

theorem returns_det {root : Nat → Nat} {i j k : Nat} (h : Returns (fun fuel => primeAbove root fuel i) j)
    (h' : Returns (fun fuel => primeAbove root fuel i) k) : j = k := by
  obtain ⟨F, hF⟩ := h
  obtain ⟨G, hG⟩ := h'
  exact primeAbove_det (hF F (Nat.le_refl _)) (hG G (Nat.le_refl _))

/-- Elements of what is returned were visited. -/
theorem factorLoop_visits {root : Nat → Nat} : ∀ (fuel i m : Nat) (l : List Nat), factorLoop root fuel i m = some l →
    ∀ p ∈ l, Visits root i p := by
  intro fuel
  induction fuel with
  | zero => intro i m l h; simp [factorLoop] at h
  | succ f ih =>
    intro i m l h p hp
    rw [factorLoop] at h
    split at h
    · injection h with h; subst h; cases hp
    · rw [Option.bind_eq_some_iff] at h
      obtain ⟨r, h1, h⟩ := h
      rw [Option.bind_eq_some_iff] at h
      obtain ⟨i', h2, h⟩ := h
      rw [Option.map_eq_some_iff] at h
      obtain ⟨l', h3, rfl⟩ := h
      rcases List.mem_append.1 hp with hp | hp
      · rw [(List.mem_replicate.1 hp).2]; exact .refl
      · exact .head (primeAbove_returns h2) (ih i' r.1 l' h3 p hp)

theorem uniqueLoop_visits {root : Nat → Nat} : ∀ (fuel i m : Nat) (l : List Nat), uniqueLoop root fuel i m = some l →
    ∀ p ∈ l, Visits root i p := by
  intro fuel
  induction fuel with
  | zero => intro i m l h; simp [uniqueLoop] at h
  | succ f ih =>
    intro i m l h p hp
    rw [uniqueLoop] at h
    split at h
    · injection h with h; subst h; cases hp
    · rw [Option.bind_eq_some_iff] at h
      obtain ⟨r, h1, h⟩ := h
      rw [Option.bind_eq_some_iff] at h
      obtain ⟨i', h2, h⟩ := h
      rw [Option.map_eq_some_iff] at h
      obtain ⟨l', h3, rfl⟩ := h
      have := fun q hq => Relation.ReflTransGen.head (primeAbove_returns h2) (ih i' r.1 l' h3 q hq)
      split at hp
      · exact this p hp
      · rcases List.mem_cons.1 hp with rfl | hp
        · exact .refl
        · exact this p hp

/-- Both loops end when all prime factors are visited. -/
theorem loops_end {root : Nat → Nat} (hr : Root root) (B : Nat) : ∀ (gap i m : Nat), B + 1 - i = gap → 2 ≤ i → 0 < m →
    (∀ q, q.Prime → q ∣ m → q ≤ B ∧ Visits root i q) →
    ∃ F, ∀ fuel ≥ F, (∃ l, factorLoop root fuel i m = some l) ∧ ∃ l, uniqueLoop root fuel i m = some l := by
  intro gap
  induction gap using Nat.strongRecOn with
  | _ gap ih =>
    intro i m hg hi hm hq
    by_cases h1 : m = 1
    · refine ⟨1, fun fuel hf => ?_⟩
      obtain ⟨f, rfl⟩ : ∃ f, fuel = f + 1 := ⟨fuel - 1, by omega⟩
      rw [factorLoop, uniqueLoop, if_pos h1, if_pos h1]
      exact ⟨⟨_, rfl⟩, ⟨_, rfl⟩⟩
    · obtain ⟨r, hdr⟩ := divideOut_total (i := i) (by omega) hm
      obtain ⟨j, hj⟩ := primeAbove_total hr i
      obtain ⟨hspec, hnd⟩ := divideOut_spec i m r hdr
      have hr1 : 0 < r.1 := by
        rcases Nat.eq_zero_or_pos r.1 with h | h
        · rw [h, Nat.mul_zero] at hspec; omega
        · exact h
      have hlt := returns_lt hj
      have hb := hq _ (Nat.minFac_prime h1) (Nat.minFac_dvd m)
      have hib : i ≤ B := Nat.le_trans (visits_le hb.2) hb.1
      obtain ⟨F, hF⟩ := ih (B + 1 - j) (by omega) j r.1 rfl (by omega) hr1 (by
        intro q hqp hqd
        have h2 := hq q hqp (by rw [hspec]; exact hqd.mul_left _)
        refine ⟨h2.1, ?_⟩
        rcases Relation.ReflTransGen.cases_head h2.2 with he | ⟨k, hk, hkq⟩
        · exact absurd (he ▸ hqd) hnd
        · rw [returns_det hj hk]; exact hkq)
      obtain ⟨G, hG⟩ := hj
      refine ⟨max F G + 1, fun fuel hf => ?_⟩
      obtain ⟨f, rfl⟩ : ∃ f, fuel = f + 1 := ⟨fuel - 1, by omega⟩
      obtain ⟨⟨l1, e1⟩, ⟨l2, e2⟩⟩ := hF f (by omega)
      have hGf : primeAbove root f i = some j := hG f (by omega)
      rw [factorLoop, uniqueLoop, if_neg h1, if_neg h1, hdr]
      simp only [Option.bind_some, hGf, e1, e2]
      exact ⟨⟨_, rfl⟩, ⟨_, rfl⟩⟩

end ELC.Arith
