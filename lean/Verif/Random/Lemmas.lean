import Verif.Random.Model
import Verif.Random.Spec
import Verif.Arith.Props
import Verif.Bits.Props
import Mathlib.Data.Nat.ModEq
import Mathlib.Data.Fintype.Card
import Mathlib.Data.Fintype.EquivFin
import Mathlib.Algebra.BigOperators.Group.Finset.Basic
import Mathlib.Tactic.Ring
import Mathlib.Tactic.NormNum.Prime
namespace ELC.Random

open Spec (times FullPeriod)
open ELC.Bits (bitsOf getBitnum)

/-! ### the period -/

/-- `1 + a + … + a^(n-1)`. -/
def geo (a : Nat) : Nat → Nat
  | 0 => 0
  | n + 1 => a * geo a n + 1

theorem geo_add (a m : Nat) : ∀ n, geo a (m + n) = a ^ n * geo a m + geo a n := by
  intro n
  induction n with
  | zero => simp [geo]
  | succ n ih => rw [← Nat.add_assoc, geo, ih, geo, Nat.pow_succ]; ring

theorem geo_parity {a : Nat} (ha : a % 4 = 1) : ∀ n, geo a n % 2 = n % 2 := by
  intro n
  induction n with
  | zero => rfl
  | succ n ih => rw [geo, Nat.add_mod, Nat.mul_mod, ih]; have : a % 2 = 1 := by omega
                 rw [this]; omega

theorem pow_mod4 {a : Nat} (ha : a % 4 = 1) (n : Nat) : a ^ n % 4 = 1 := by
  rw [Nat.pow_mod, ha]; simp

theorem geo_dvd {a : Nat} (ha : a % 4 = 1) : ∀ k n, 2 ^ k ∣ geo a n ↔ 2 ^ k ∣ n := by
  intro k
  induction k with
  | zero => intro n; simp
  | succ k ih =>
    intro n
    rcases Nat.even_or_odd' n with ⟨m, rfl | rfl⟩
    · have h1 : geo a (2 * m) = (a ^ m + 1) * geo a m := by
        rw [show 2 * m = m + m by omega, geo_add]; ring
      have h2 := pow_mod4 ha m
      obtain ⟨q, hq⟩ : ∃ q, a ^ m + 1 = 2 * (2 * q + 1) := ⟨(a ^ m - 1) / 4, by omega⟩
      rw [h1, hq, Nat.pow_succ, Nat.mul_comm (2 ^ k) 2, Nat.mul_assoc, Nat.mul_dvd_mul_iff_left (by decide),
        Nat.mul_dvd_mul_iff_left (by decide), ← ih m]
      constructor
      · intro h
        exact (Nat.Coprime.pow_left k (by
          rw [Nat.coprime_two_left]; exact ⟨q, rfl⟩)).dvd_of_dvd_mul_left h
      · intro h; exact Dvd.dvd.mul_left h _
    · constructor
      · intro h
        have h2 : 2 ∣ geo a (2 * m + 1) := (Dvd.intro_left (2 ^ k) rfl).trans h
        have := geo_parity ha (2 * m + 1)
        omega
      · intro h
        have h2 : 2 ∣ 2 * m + 1 := (Dvd.intro_left (2 ^ k) rfl).trans h
        omega

theorem times_add {α : Type} (f : α → α) : ∀ m n x, times f (m + n) x = times f n (times f m x) := by
  intro m
  induction m with
  | zero => intro n x; simp [times]
  | succ m ih => intro n x; rw [show m + 1 + n = (m + n) + 1 by omega, times, ih]; rfl

theorem times_lt {M : Nat} {f : Nat → Nat} (hf : ∀ x, f x < M) : ∀ n x, x < M → times f n x < M := by
  intro n
  induction n with
  | zero => intro x h; exact h
  | succ n ih => intro x _; exact ih _ (hf x)

theorem lcg_times (k a c : Nat) : ∀ n x, times (lcg k a c) n x ≡ a ^ n * x + c * geo a n [MOD 2 ^ k] := by
  intro n
  induction n with
  | zero => intro x; simp [times, geo]; rfl
  | succ n ih =>
    intro x
    rw [times]
    refine (ih _).trans ?_
    have h1 : lcg k a c x ≡ a * x + c [MOD 2 ^ k] := Nat.mod_modEq _ _
    refine ((h1.mul_left (a ^ n)).add_right _).trans ?_
    have h2 : geo a (n + 1) = geo a n + a ^ n := by
      rw [Nat.add_comm n 1, geo_add]; simp [geo]; ring
    rw [h2, Nat.pow_succ]
    show _ % _ = _ % _
    congr 1
    ring

theorem pow_geo {a : Nat} (h : 1 ≤ a) (n : Nat) : a ^ n = (a - 1) * geo a n + 1 := by
  obtain ⟨b, rfl⟩ : ∃ b, a = b + 1 := ⟨a - 1, by omega⟩
  rw [Nat.add_sub_cancel]
  induction n with
  | zero => simp [geo]
  | succ n ih => rw [Nat.pow_succ, ih, geo]; ring

theorem lcg_return {k a c : Nat} (ha : a % 4 = 1) (hc : c % 2 = 1) {x : Nat} (hx : x < 2 ^ k) (n : Nat) :
    times (lcg k a c) n x = x ↔ 2 ^ k ∣ n := by
  have hlt : times (lcg k a c) n x < 2 ^ k := times_lt (fun y => Nat.mod_lt _ (Nat.two_pow_pos k)) n x hx
  have h1 : times (lcg k a c) n x = x ↔ times (lcg k a c) n x ≡ x [MOD 2 ^ k] :=
    ⟨fun h => by rw [h], fun h => Nat.ModEq.eq_of_lt_of_lt h hlt hx⟩
  rw [h1]
  have hgeo := pow_geo (show 1 ≤ a by omega) n
  have e : a ^ n * x + c * geo a n = x + ((a - 1) * x + c) * geo a n := by rw [hgeo]; ring
  have h2 : (times (lcg k a c) n x ≡ x [MOD 2 ^ k]) ↔ 2 ^ k ∣ ((a - 1) * x + c) * geo a n := by
    constructor
    · intro h
      have h3 := (lcg_times k a c n x).symm.trans h
      rw [e] at h3
      have h4 : x + ((a - 1) * x + c) * geo a n ≡ x + 0 [MOD 2 ^ k] := by simpa using h3
      exact (Nat.modEq_zero_iff_dvd).1 (Nat.ModEq.add_left_cancel' x h4)
    · intro h
      refine (lcg_times k a c n x).trans ?_
      rw [e]
      have := (Nat.modEq_zero_iff_dvd).2 h
      simpa using this.add_left x
  rw [h2, ← geo_dvd ha k n]
  have hodd : ((a - 1) * x + c) % 2 = 1 := by
    obtain ⟨q, hq⟩ : ∃ q, a - 1 = 2 * q := ⟨(a - 1) / 2, by omega⟩
    rw [hq, Nat.mul_assoc]; omega
  constructor
  · intro h
    exact (Nat.Coprime.pow_left k (by rw [Nat.coprime_two_left, Nat.odd_iff]; exact hodd)).dvd_of_dvd_mul_left h
  · intro h; exact Dvd.dvd.mul_left h _

theorem lcg_full {k a c : Nat} (ha : a % 4 = 1) (hc : c % 2 = 1) {x : Nat} (hx : x < 2 ^ k) :
    FullPeriod (2 ^ k) (lcg k a c) x := by
  have hb : ∀ y, lcg k a c y < 2 ^ k := fun y => Nat.mod_lt _ (Nat.two_pow_pos k)
  refine ⟨?_, fun n => lcg_return ha hc hx n⟩
  let F : Fin (2 ^ k) → Fin (2 ^ k) := fun n => ⟨times (lcg k a c) n x, times_lt hb n x hx⟩
  have hinj : Function.Injective F := by
    have key : ∀ i j : Nat, i ≤ j → j < 2 ^ k → times (lcg k a c) i x = times (lcg k a c) j x → i = j := by
      intro i j hij hj h
      have h1 : times (lcg k a c) j x = times (lcg k a c) (j - i) (times (lcg k a c) i x) := by
        rw [← times_add]; congr 1; omega
      rw [h1] at h
      have h2 := (lcg_return ha hc (times_lt hb i x hx) (j - i)).1 h.symm
      have := Nat.eq_zero_of_dvd_of_lt h2 (by omega)
      omega
    intro i j h
    have h' : times (lcg k a c) i x = times (lcg k a c) j x := congrArg Fin.val h
    apply Fin.ext
    rcases Nat.le_total i.1 j.1 with hij | hij
    · exact key _ _ hij j.2 h'
    · exact (key _ _ hij i.2 h'.symm).symm
  intro y hy
  obtain ⟨n, hn⟩ := (Finite.injective_iff_surjective.1 hinj) ⟨y, hy⟩
  exact ⟨n.1, n.2, congrArg Fin.val hn⟩

/-! ### the multiplier -/

theorem fourLoop_four {m : Nat} (hm : m % 4 = 0) : ∀ fuel {off r}, fourLoop m fuel off = some r → r % 4 = 0 := by
  intro fuel
  induction fuel with
  | zero => intro off r h; cases h
  | succ fuel ih =>
    intro off r h
    rw [fourLoop] at h
    split at h
    · exact ih h
    · next hn => injection h with h; subst h; omega

theorem growLoop_four (root : Nat → Nat) (s : Nat) : ∀ fuel {off r}, off % 4 = 0 → growLoop root s fuel off = some r → r % 4 = 0 := by
  intro fuel
  induction fuel with
  | zero => intro off r _ h; cases h
  | succ fuel ih =>
    intro off r h4 h
    rw [growLoop, Option.bind_eq_some_iff] at h
    obtain ⟨p, _, h⟩ := h
    have hk : off * p % 2 ^ 64 % 4 = 0 := by
      rw [Nat.mod_mod_of_dvd _ (show 4 ∣ 2 ^ 64 by decide), Nat.mul_mod, h4]; simp
    split at h
    · exact ih hk h
    · injection h with h; subst h; exact hk

theorem multiplier_mod4 {root : Nat → Nat} {s fuel m a : Nat} (hm : m % 4 = 0) (h : multiplier root s fuel m = some a) :
    a % 4 = 1 := by
  unfold multiplier at h
  rw [Option.bind_eq_some_iff] at h
  obtain ⟨off, _, h⟩ := h
  rw [Option.bind_eq_some_iff] at h
  obtain ⟨off', h2, h⟩ := h
  rw [Option.map_eq_some_iff] at h
  obtain ⟨r, h3, rfl⟩ := h
  have h4 : (if m = 0 then 2 ^ 64 - 4 else m) % 4 = 0 := by split <;> omega
  have := growLoop_four root s fuel (fourLoop_four h4 fuel h2) h3
  rw [Nat.mod_mod_of_dvd _ (show 4 ∣ 2 ^ 64 by decide)]
  omega

/-! ### the entropy table -/

theorem wordBytes_length : ∀ n v, (wordBytes n v).length = n := by
  intro n
  induction n with
  | zero => intro v; rfl
  | succ n ih => intro v; rw [wordBytes, List.length_cons, ih]

theorem writeWord_some {d : List (BitVec 8)} {n i : Nat} (h : n * i + n ≤ d.length) (v : Nat) :
    ∃ d', writeWord d n i v = some d' ∧ d'.length = d.length := by
  refine ⟨_, by rw [writeWord, if_pos h], ?_⟩
  simp only [List.length_append, List.length_take, List.length_drop, wordBytes_length]
  omega

theorem genBase_some (a : Nat) {k : Nat} (hk : k ≤ 2) {st : State} (h : st.entropy.length = 2048) :
    ∃ r st', genBase a k st = some (r, st') ∧ st'.entropy.length = 2048 ∧ st'.seed = lcg 64 a increment st.seed ∧
      r < 2 ^ bitsOf k := by
  have hin : ∀ j, 2 ^ k * (j % (2048 / 2 ^ k)) + 2 ^ k ≤ st.entropy.length := by
    intro j
    rw [h]
    have hd : 2 ^ k * (2048 / 2 ^ k) = 2048 := by
      have : k = 0 ∨ k = 1 ∨ k = 2 := by omega
      rcases this with rfl | rfl | rfl <;> rfl
    have hp : 0 < 2048 / 2 ^ k := by
      have : k = 0 ∨ k = 1 ∨ k = 2 := by omega
      rcases this with rfl | rfl | rfl <;> decide
    have := Nat.mod_lt j hp
    calc 2 ^ k * (j % (2048 / 2 ^ k)) + 2 ^ k = 2 ^ k * (j % (2048 / 2 ^ k) + 1) := by ring
      _ ≤ 2 ^ k * (2048 / 2 ^ k) := Nat.mul_le_mul_left _ this
      _ = 2048 := hd
  have hread : ∀ (l : List (BitVec 8)), l.foldr (fun b v => b.toNat + 256 * v) 0 < 2 ^ (8 * l.length) := by
    intro l
    induction l with
    | nil => simp
    | cons b bs ih =>
      rw [List.foldr_cons, List.length_cons, show 8 * (bs.length + 1) = 8 + 8 * bs.length by ring, Nat.pow_add]
      have := b.isLt
      have h8 : 2 ^ 8 = 256 := rfl
      rw [h8] at this ⊢
      generalize 2 ^ (8 * bs.length) = P at ih ⊢
      omega
  unfold genBase
  dsimp only
  unfold readWord
  rw [if_pos (hin _)]
  simp only [Option.bind_some]
  unfold writeWord
  rw [if_pos (hin _)]
  refine ⟨_, _, rfl, ?_, rfl, ?_⟩
  · simp only [List.length_append, List.length_take, List.length_drop, wordBytes_length]
    have := hin (((st.seed >>> (64 - 2 * bitsOf k)) % 2 ^ (2 * bitsOf k)) >>> bitsOf k % 2 ^ bitsOf k)
    rw [h] at this ⊢
    generalize 2 ^ k * _ = X at this ⊢
    generalize 2 ^ k = Y at this ⊢
    omega
  · apply Nat.xor_lt_two_pow
    · exact BitVec.isLt _
    · refine Nat.lt_of_lt_of_le (hread _) ?_
      apply Nat.pow_le_pow_right (by decide)
      rw [List.length_take]
      unfold bitsOf
      have := Nat.min_le_left (2 ^ k) (List.drop (2 ^ k *
        ((st.seed >>> (64 - 2 * (8 * 2 ^ k)) % 2 ^ (2 * (8 * 2 ^ k))) >>> (8 * 2 ^ k) % 2 ^ (8 * 2 ^ k) % (2048 / 2 ^ k))) st.entropy).length
      omega

end ELC.Random
