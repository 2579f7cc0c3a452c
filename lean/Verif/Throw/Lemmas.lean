import Verif.Throw.Spec
import Mathlib.Data.List.Induction

namespace ELC.Throw
open Spec

variable {A : Type}

theorem tick_ok {may : Bool} {t : Nat} (h : 0 < t ∨ may = false) : tick may t = some (t - count may 1) := by
  cases may
  · rfl
  · match t, h with
    | t + 1, _ => rfl
    | 0, .inl h => exact absurd h (by omega)

theorem tick_throw : tick true 0 = none := rfl

theorem count_le (may : Bool) (n : Nat) : count may n ≤ n := by unfold count; split <;> omega

theorem make_done (may : Bool) (rs : List A) : ∀ (a m b : List (Cell A)) (t : Nat), m.length = rs.length →
    count may rs.length ≤ t →
    makeLoop may a.length rs (a ++ m ++ b) t = .done (a ++ lives rs.reverse ++ b) (t - count may rs.length) := by
  induction rs with
  | nil =>
    intro a m b t hm _
    rw [List.length_nil, List.length_eq_zero_iff] at hm
    subst hm
    simp [makeLoop, lives, count]
  | cons x r ih =>
    intro a m b t hm ht
    rcases List.eq_nil_or_concat m with rfl | ⟨m', y, rfl⟩
    · simp at hm
    · rw [List.concat_eq_append] at hm ⊢
      have hm' : m'.length = r.length := by simpa using hm
      have h1 : tick may t = some (t - count may 1) := by
        apply tick_ok
        cases may
        · exact Or.inr rfl
        · left; simp only [count, if_true, List.length_cons] at ht; omega
      have e : (a ++ (m' ++ [y]) ++ b).set (a.length + r.length) (.live x) = a ++ m' ++ (.live x :: b) := by
        rw [← hm']
        simp [List.append_assoc, List.set_append]
      have h2 : count may r.length ≤ t - count may 1 := by
        cases may
        · simp [count]
        · simp only [count, if_true, List.length_cons] at ht ⊢; omega
      rw [makeLoop, h1]
      dsimp only
      rw [e, ih a m' (.live x :: b) _ hm' h2]
      have e2 : t - count may 1 - count may r.length = t - count may (x :: r).length := by
        cases may
        · simp [count]
        · simp only [count, if_true, List.length_cons]; omega
      rw [e2]
      simp [lives, List.append_assoc]

theorem make_throw (rs : List A) : ∀ (a m b : List (Cell A)) (t : Nat), m.length = rs.length → t < rs.length →
    makeLoop true a.length rs (a ++ m ++ b) t =
      .thrown (a ++ m.take (m.length - t) ++ lives (rs.take t).reverse ++ b) := by
  induction rs with
  | nil => intro a m b t _ ht; simp at ht
  | cons x r ih =>
    intro a m b t hm ht
    match t with
    | 0 =>
      rw [makeLoop, tick_throw]
      simp [lives, List.append_assoc]
    | t + 1 =>
      rcases List.eq_nil_or_concat m with rfl | ⟨m', y, rfl⟩
      · simp at hm
      · rw [List.concat_eq_append] at hm ⊢
        have hm' : m'.length = r.length := by simpa using hm
        have e : (a ++ (m' ++ [y]) ++ b).set (a.length + r.length) (.live x) = a ++ m' ++ (.live x :: b) := by
          rw [← hm']
          simp [List.append_assoc, List.set_append]
        rw [makeLoop]
        simp only [tick, if_true]
        rw [e, ih a m' (.live x :: b) t hm' (by simpa using ht)]
        have e2 : (m' ++ [y]).take ((m' ++ [y]).length - (t + 1)) = m'.take (m'.length - t) := by
          rw [List.length_append, List.length_singleton, show m'.length + 1 - (t + 1) = m'.length - t by omega,
            List.take_append_of_le_length (by omega)]
        rw [e2]
        simp [lives, List.append_assoc]

theorem destruct_alive (xs : List (Cell A)) : ∀ (a b : List (Cell A)), (∀ c ∈ xs, c.alive = true) →
    destruct a.length xs.length (a ++ xs ++ b) = some (a ++ raws xs.length ++ b) := by
  induction xs using List.reverseRecOn with
  | nil => intro a b _; simp [destruct, raws]
  | append_singleton xs x ih =>
    intro a b h
    rw [List.length_append, List.length_singleton, destruct]
    have e1 : (a ++ (xs ++ [x]) ++ b)[a.length + xs.length]? = some x := by
      simp [List.append_assoc, List.getElem?_append]
    have e2 : (a ++ (xs ++ [x]) ++ b).set (a.length + xs.length) .raw = a ++ xs ++ (.raw :: b) := by
      simp [List.append_assoc, List.set_append]
    rw [e1]
    dsimp only
    rw [if_pos (h x (by simp)), e2, ih a (.raw :: b) (fun c hc => h c (by simp [hc]))]
    simp [raws, List.replicate_succ', List.append_assoc]

theorem destruct_some (xs : List (Cell A)) : ∀ (a b : List (Cell A)) {r : List (Cell A)},
    destruct a.length xs.length (a ++ xs ++ b) = some r → ∀ c ∈ xs, c.alive = true := by
  induction xs using List.reverseRecOn with
  | nil => intro a b r _ c hc; simp at hc
  | append_singleton xs x ih =>
    intro a b r h
    rw [List.length_append, List.length_singleton, destruct] at h
    have e1 : (a ++ (xs ++ [x]) ++ b)[a.length + xs.length]? = some x := by
      simp [List.append_assoc, List.getElem?_append]
    have e2 : (a ++ (xs ++ [x]) ++ b).set (a.length + xs.length) .raw = a ++ xs ++ (.raw :: b) := by
      simp [List.append_assoc, List.set_append]
    rw [e1] at h
    dsimp only at h
    by_cases hx : x.alive = true
    · rw [if_pos hx, e2] at h
      intro c hc
      rw [List.mem_append, List.mem_singleton] at hc
      rcases hc with hc | rfl
      · exact ih a (.raw :: b) h c hc
      · exact hx
    · rw [if_neg hx] at h; cases h

theorem moveLoop_done (may : Bool) (xs : List A) : ∀ (a b a' m b' : List (Cell A)) (t : Nat), m.length = xs.length →
    count may xs.length ≤ t →
    moveLoop may a'.length a.length xs.length (a ++ lives xs ++ b) (a' ++ m ++ b') t =
      .done (a ++ husks xs.length ++ b, a' ++ lives xs ++ b') (t - count may xs.length) := by
  induction xs using List.reverseRecOn with
  | nil =>
    intro a b a' m b' t hm _
    rw [List.length_nil, List.length_eq_zero_iff] at hm
    subst hm
    simp [moveLoop, lives, husks, count]
  | append_singleton xs x ih =>
    intro a b a' m b' t hm ht
    rcases List.eq_nil_or_concat m with rfl | ⟨m', y, rfl⟩
    · simp at hm
    · rw [List.concat_eq_append] at hm ⊢
      have hm' : m'.length = xs.length := by simpa using hm
      rw [List.length_append, List.length_singleton] at ht ⊢
      have hl : (lives xs).length = xs.length := by simp [lives]
      have e0 : (a ++ lives (xs ++ [x]) ++ b)[a.length + xs.length]? = some (.live x) := by
        simp [lives, List.append_assoc, List.getElem?_append]
      have e1 : (a ++ lives (xs ++ [x]) ++ b).set (a.length + xs.length) .husk = a ++ lives xs ++ (.husk :: b) := by
        simp [lives, List.append_assoc, List.set_append]
      have e2 : (a' ++ (m' ++ [y]) ++ b').set (a'.length + xs.length) (.live x) = a' ++ m' ++ (.live x :: b') := by
        rw [← hm']
        simp [List.append_assoc, List.set_append]
      have h1 : tick may t = some (t - count may 1) := by
        apply tick_ok
        cases may
        · exact Or.inr rfl
        · left; simp only [count, if_true] at ht; omega
      have h2 : count may xs.length ≤ t - count may 1 := by
        cases may
        · simp [count]
        · simp only [count, if_true] at ht ⊢; omega
      have e3 : t - count may 1 - count may xs.length = t - count may (xs.length + 1) := by
        cases may
        · simp [count]
        · simp only [count, if_true]; omega
      rw [moveLoop, e0]
      dsimp only
      rw [h1]
      dsimp only
      rw [e1, e2, ih a (.husk :: b) a' m' (.live x :: b') _ hm' h2, e3]
      simp [lives, husks, List.replicate_succ', List.append_assoc]

theorem lives_length (xs : List A) : (lives xs).length = xs.length := by simp [lives]

theorem butLast_zero (xs : List A) : butLast 0 xs = xs := by rw [butLast, Nat.sub_zero, List.take_length]

theorem lastN_zero (xs : List A) : lastN 0 xs = [] := by rw [lastN, Nat.sub_zero, List.drop_length]

theorem moveLoop_throw (xs : List A) : ∀ (a b a' m b' : List (Cell A)) (t : Nat), m.length = xs.length → t < xs.length →
    moveLoop true a'.length a.length xs.length (a ++ lives xs ++ b) (a' ++ m ++ b') t =
      .thrown (a ++ lives (butLast t xs) ++ husks t ++ b,
        a' ++ m.take (m.length - t) ++ lives (lastN t xs) ++ b') := by
  induction xs using List.reverseRecOn with
  | nil => intro a b a' m b' t _ ht; simp at ht
  | append_singleton xs x ih =>
    intro a b a' m b' t hm ht
    rw [List.length_append, List.length_singleton] at ht ⊢
    have e0 : (a ++ lives (xs ++ [x]) ++ b)[a.length + xs.length]? = some (.live x) := by
      simp [lives, List.append_assoc, List.getElem?_append]
    match t with
    | 0 =>
      rw [moveLoop, e0]
      dsimp only
      rw [tick_throw]
      rw [butLast_zero, lastN_zero]
      simp [husks, lives, List.append_assoc]
    | t + 1 =>
      rcases List.eq_nil_or_concat m with rfl | ⟨m', y, rfl⟩
      · simp at hm
      · rw [List.concat_eq_append] at hm ⊢
        have hm' : m'.length = xs.length := by simpa using hm
        have e1 : (a ++ lives (xs ++ [x]) ++ b).set (a.length + xs.length) .husk = a ++ lives xs ++ (.husk :: b) := by
          simp [lives, List.append_assoc, List.set_append]
        have e2 : (a' ++ (m' ++ [y]) ++ b').set (a'.length + xs.length) (.live x) = a' ++ m' ++ (.live x :: b') := by
          rw [← hm']
          simp [List.append_assoc, List.set_append]
        have e3 : (m' ++ [y]).take ((m' ++ [y]).length - (t + 1)) = m'.take (m'.length - t) := by
          rw [List.length_append, List.length_singleton, show m'.length + 1 - (t + 1) = m'.length - t by omega,
            List.take_append_of_le_length (by omega)]
        have e4 : butLast (t + 1) (xs ++ [x]) = butLast t xs := by
          rw [butLast, butLast, List.length_append, List.length_singleton,
            show xs.length + 1 - (t + 1) = xs.length - t by omega, List.take_append_of_le_length (by omega)]
        have e5 : lastN (t + 1) (xs ++ [x]) = lastN t xs ++ [x] := by
          rw [lastN, lastN, List.length_append, List.length_singleton,
            show xs.length + 1 - (t + 1) = xs.length - t by omega, List.drop_append_of_le_length (by omega)]
        rw [moveLoop, e0]
        simp only [tick, if_true]
        rw [e1, e2, ih a (.husk :: b) a' m' (.live x :: b') t hm' (by omega), e3, e4, e5]
        simp [lives, husks, List.replicate_succ', List.append_assoc]

theorem husks_alive (n : Nat) : ∀ c ∈ (husks n : List (Cell A)), c.alive = true := by
  intro c hc
  rw [husks, List.mem_replicate] at hc
  rw [hc.2]; rfl

theorem lives_alive (xs : List A) : ∀ c ∈ lives xs, c.alive = true := by
  intro c hc
  simp only [lives, List.mem_map] at hc
  obtain ⟨x, _, rfl⟩ := hc
  rfl

theorem move_done {may : Bool} {xs : List A} (a b a' m b' : List (Cell A)) {t : Nat} (hm : m.length = xs.length)
    (ht : count may xs.length ≤ t) :
    move may a'.length a.length xs.length (a ++ lives xs ++ b) (a' ++ m ++ b') t =
      .done (a ++ raws xs.length ++ b, a' ++ lives xs ++ b') (t - count may xs.length) := by
  rw [move, moveLoop_done may xs a b a' m b' t hm ht]
  dsimp only
  have := destruct_alive (husks xs.length) a b (husks_alive _)
  rw [show (husks xs.length : List (Cell A)).length = xs.length by simp [husks]] at this
  rw [this]

theorem move_throw {xs : List A} (a b a' m b' : List (Cell A)) {t : Nat} (hm : m.length = xs.length) (ht : t < xs.length) :
    move true a'.length a.length xs.length (a ++ lives xs ++ b) (a' ++ m ++ b') t =
      .thrown (a ++ lives (butLast t xs) ++ husks t ++ b,
        a' ++ m.take (m.length - t) ++ lives (lastN t xs) ++ b') := by
  rw [move, moveLoop_throw xs a b a' m b' t hm ht]

theorem filter_raws (n : Nat) : (raws n : List (Cell A)).filter Cell.alive = [] := by
  simp [raws, Cell.alive]

theorem filter_lives (xs : List A) : (lives xs).filter Cell.alive = lives xs :=
  List.filter_eq_self.2 (lives_alive xs)

theorem take_raws (n k : Nat) : (raws n : List (Cell A)).take k = raws (min k n) := by
  simp [raws, List.take_replicate]

theorem raws_length (n : Nat) : (raws n : List (Cell A)).length = n := by simp [raws]

theorem raws_add (n k : Nat) : (raws (n + k) : List (Cell A)) = raws n ++ raws k := by
  rw [raws, raws, raws, List.replicate_append_replicate]

end ELC.Throw
