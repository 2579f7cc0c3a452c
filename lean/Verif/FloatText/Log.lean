import Verif.FloatText.Model
import Mathlib.Tactic.Ring
import Mathlib.Tactic.NormNum
/-! `integer_log`. -/
namespace ELC.FloatText

theorem logLoop_spec {a b lv num : Nat} (hb : 2 ≤ b) (hlv : lv = b ^ num) (hn : 0 < num) :
    ∀ (fuel r : Nat), b ^ r ≤ a → a < b ^ r + fuel →
      ∃ r', logLoop a lv num fuel (b ^ r) r = some (r', b ^ r') ∧ b ^ r' ≤ a ∧ a < b ^ (r' + num) := by
  intro fuel
  induction fuel with
  | zero => intro r h1 h2; omega
  | succ fuel ih =>
    intro r h1 h2
    rw [logLoop, hlv, ← pow_add]
    by_cases hc : a < b ^ (r + num)
    · rw [if_pos hc]; exact ⟨r, rfl, h1, hc⟩
    · rw [if_neg hc]
      have : b ^ r < b ^ (r + num) := Nat.pow_lt_pow_right (by omega) (by omega)
      rw [← hlv]
      exact ih (r + num) (by omega) (by omega)

theorem logImpl_spec {a b : Nat} (hb : 2 ≤ b) (ha : 1 ≤ a) : ∀ (fuel num : Nat), 0 < num → a < b ^ num + fuel →
    0 < fuel → ∃ r, logImpl a fuel 1 (b ^ num) num = some (r, b ^ r) ∧ b ^ r ≤ a ∧ a < b ^ (r + num) := by
  intro fuel
  induction fuel with
  | zero => intro num _ _ h; omega
  | succ fuel ih =>
    intro num hn hf _
    have hlt : b ^ num < b ^ (num * 2) := Nat.pow_lt_pow_right (by omega) (by omega)
    have e2 : b ^ num * b ^ num = b ^ (num * 2) := by rw [← pow_add]; congr 1; omega
    rw [logImpl, e2]
    by_cases hc : b ^ (num * 2) < a
    · rw [if_pos hc]
      obtain ⟨r, h1, h2, h3⟩ := ih (num * 2) (by omega) (by omega) (by omega)
      rw [h1]
      dsimp only
      exact logLoop_spec hb rfl hn _ _ h2 (by have := Nat.pow_pos (n := r) (show 0 < b by omega); omega)
    · rw [if_neg hc]
      have := logLoop_spec (a := a) hb (lv := b ^ num) rfl hn (a + 1) 0 (by simpa using ha) (by omega)
      simpa using this

theorem integerLog_spec {a b : Nat} (hb : 2 ≤ b) (ha : 1 ≤ a) :
    ∃ k, integerLog a b = some k ∧ b ^ k ≤ a ∧ a < b ^ (k + 1) := by
  obtain ⟨r, h1, h2, h3⟩ := logImpl_spec hb ha (a + 1) 1 (by omega) (by omega) (by omega)
  rw [pow_one] at h1
  exact ⟨r, by rw [integerLog, h1]; rfl, h2, h3⟩

/-- A number below `2^s` and products below `2^(2 s)`: nothing wraps. -/
theorem logLoopNative_eq {t a lv num : Nat} {M : Nat} (hM : M * M ≤ 2 ^ t) (ha : a < M) (hlv : lv < M) :
    ∀ (fuel tester aret : Nat), tester ≤ a → logLoopNative t a lv num fuel tester aret = logLoop a lv num fuel tester aret := by
  intro fuel
  induction fuel with
  | zero => intros; rfl
  | succ fuel ih =>
    intro tester aret ht
    have hlt : tester * lv < 2 ^ t :=
      Nat.lt_of_lt_of_le (Nat.mul_lt_mul_of_lt_of_lt (by omega : tester < M) hlv) hM
    rw [logLoopNative, logLoop, Nat.mod_eq_of_lt hlt]
    by_cases hc : a < tester * lv
    · rw [if_pos hc, if_pos hc]
    · skip
      rw [if_neg hc, if_neg hc]
      exact ih _ _ (by omega)

theorem logLoop_tester {a lv num : Nat} : ∀ (fuel tester aret : Nat) (x : Nat × Nat), tester ≤ a →
    logLoop a lv num fuel tester aret = some x → x.2 ≤ a := by
  intro fuel
  induction fuel with
  | zero => intro _ _ _ _ h; cases h
  | succ fuel ih =>
    intro tester aret x ht h
    rw [logLoop] at h
    split at h
    · cases h; exact ht
    · exact ih _ _ _ (by omega) h

theorem logImplNative_eq {t a M : Nat} (hM : M * M ≤ 2 ^ t) (ha : a < M) : ∀ (fuel tester lv num : Nat), lv < M → tester ≤ a →
    logImplNative t a (a + 1) fuel tester lv num = logImpl a fuel tester lv num ∧
      ∀ x, logImpl a fuel tester lv num = some x → x.2 ≤ a := by
  intro fuel
  induction fuel with
  | zero => intros; exact ⟨rfl, fun x h => by cases h⟩
  | succ fuel ih =>
    intro tester lv num hlv ht
    have hlt : lv * lv < 2 ^ t := Nat.lt_of_lt_of_le (Nat.mul_lt_mul_of_lt_of_lt hlv hlv) hM
    rw [logImplNative, logImpl, Nat.mod_eq_of_lt hlt]
    by_cases hc : lv * lv < a
    · rw [if_pos hc, if_pos hc]
      obtain ⟨i1, i2⟩ := ih tester (lv * lv) (num * 2) (by omega) ht
      rw [i1]
      cases hr : logImpl a fuel tester (lv * lv) (num * 2) with
      | none => exact ⟨rfl, fun x h => by cases h⟩
      | some x =>
        have hx := i2 x hr
        refine ⟨logLoopNative_eq hM ha hlv _ _ _ hx, fun y hy => logLoop_tester _ _ _ y hx hy⟩
    · rw [if_neg hc, if_neg hc]
      exact ⟨logLoopNative_eq hM ha hlv _ _ _ ht, fun y hy => logLoop_tester _ _ _ y ht hy⟩

theorem logImplNative_zero {t a rounds : Nat} (ha : 0 < a) : ∀ (fuel tester num : Nat),
    logImplNative t a rounds fuel tester 0 num = none := by
  intro fuel
  induction fuel with
  | zero => intros; rfl
  | succ fuel ih =>
    intro tester num
    rw [logImplNative]
    rw [Nat.zero_mul, Nat.zero_mod, if_pos ha, ih]

end ELC.FloatText
