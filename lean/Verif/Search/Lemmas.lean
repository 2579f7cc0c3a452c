import Verif.Search.Model
import Verif.Search.Spec
import Mathlib.Order.Basic
import Mathlib.Data.Nat.Find
import Mathlib.Tactic.ByContra
namespace ELC.Search
open Spec
variable {α : Type} [DecidableEq α]

theorem occurs_iff {p r : List α} (hp : p ≠ []) (k : Nat) :
    OccursAt p r k ↔ ∀ i < p.length, r[k + i]? = p[i]? := by
  have hpos : 0 < p.length := List.length_pos_iff.2 hp
  constructor
  · rintro ⟨b, a, rfl, rfl⟩ i hi
    rw [List.append_assoc, List.getElem?_append_right (by omega), Nat.add_sub_cancel_left,
      List.getElem?_append_left hi]
  · intro h
    have hlen : k + p.length ≤ r.length := by
      have := h (p.length - 1) (by omega)
      rw [List.getElem?_eq_getElem (l := p) (by omega)] at this
      have := (List.getElem?_eq_some_iff.1 this).1
      omega
    refine ⟨r.take k, r.drop (k + p.length), ?_, by simp; omega⟩
    have hmid : (r.drop k).take p.length = p := by
      apply List.ext_getElem?
      intro i
      by_cases hi : i < p.length
      · rw [List.getElem?_take_of_lt hi, List.getElem?_drop, h i hi]
      · rw [List.getElem?_eq_none (by simp; omega), List.getElem?_eq_none (by omega)]
    have h1 : r = r.take k ++ r.drop k := (List.take_append_drop k r).symm
    have h2 : r.drop k = (r.drop k).take p.length ++ (r.drop k).drop p.length := (List.take_append_drop _ _).symm
    rw [hmid, List.drop_drop] at h2
    rw [List.append_assoc, ← h2, ← h1]

theorem occurs_length {p r : List α} {k : Nat} (h : OccursAt p r k) : k + p.length ≤ r.length := by
  obtain ⟨b, a, rfl, rfl⟩ := h
  simp

theorem occurs_take {p mem : List α} {n k : Nat} (hp : p ≠ []) (hk : k + p.length ≤ n) :
    OccursAt p (mem.take n) k ↔ OccursAt p mem k := by
  rw [occurs_iff hp, occurs_iff hp]
  constructor <;> intro h i hi <;> have := h i hi
  · rwa [List.getElem?_take_of_lt (by omega)] at this
  · rwa [List.getElem?_take_of_lt (by omega)]

theorem cmpBack_spec {p mem : List α} {off : Nat} : ∀ (j : Nat), 0 < j → j ≤ p.length → off + j ≤ mem.length →
    ∃ b, cmpBack p mem off j = some b ∧ (b = true ↔ ∀ i < j, mem[off + i]? = p[i]?) := by
  intro j
  induction j with
  | zero => intro h; omega
  | succ j ih =>
    intro _ hj hm
    rw [cmpBack, List.getElem?_eq_getElem (l := p) (i := j) (by omega), List.getElem?_eq_getElem (l := mem) (i := off + j) (by omega)]
    dsimp only
    by_cases he : p[j] = mem[off + j]
    · rw [if_pos he]
      have hej : mem[off + j]? = p[j]? := by
        rw [List.getElem?_eq_getElem (by omega), List.getElem?_eq_getElem (by omega), he]
      by_cases h0 : j = 0
      · rw [if_pos h0]
        subst h0
        refine ⟨true, rfl, ?_⟩
        simp only [true_iff]
        intro i hi
        have : i = 0 := by omega
        subst this; exact hej
      · rw [if_neg h0]
        obtain ⟨b, e1, e2⟩ := ih (by omega) (by omega) (by omega)
        refine ⟨b, e1, e2.trans ?_⟩
        constructor
        · intro h i hi
          rcases Nat.lt_succ_iff_lt_or_eq.1 hi with h' | rfl
          · exact h i h'
          · exact hej
        · intro h i hi; exact h i (by omega)
    · rw [if_neg he]
      refine ⟨false, rfl, ?_⟩
      constructor
      · intro h; cases h
      · intro h
        have := h j (by omega)
        rw [List.getElem?_eq_getElem (by omega), List.getElem?_eq_getElem (by omega)] at this
        injection this with this
        exact absurd this.symm he

theorem buildLoop_spec (idx : α → Nat) (m : Nat) : ∀ (cs : List α) (i : Nat) (t : Nat → Nat) (x : Nat),
    ((∀ c ∈ cs, idx c ≠ x) ∧ buildLoop idx m i cs t x = t x) ∨
    ∃ k, ∃ h : k < cs.length, idx cs[k] = x ∧ (∀ k' (h' : k' < cs.length), k < k' → idx cs[k'] ≠ x) ∧
      buildLoop idx m i cs t x = m - (i + k) := by
  intro cs
  induction cs with
  | nil => intro i t x; left; exact ⟨by simp, rfl⟩
  | cons c cs ih =>
    intro i t x
    rw [buildLoop]
    rcases ih (i + 1) (fun j => if j = idx c then m - i else t j) x with ⟨h1, h2⟩ | ⟨k, hk, h1, h2, h3⟩
    · by_cases hx : x = idx c
      · right
        refine ⟨0, by simp, by simp [hx], ?_, ?_⟩
        · intro k' h' hlt
          cases k' with
          | zero => omega
          | succ k' => simpa using h1 _ (List.getElem_mem _)
        · rw [h2]; simp [hx]
      · left
        refine ⟨?_, ?_⟩
        · intro d hd
          rcases List.mem_cons.1 hd with rfl | hd
          · exact fun h => hx h.symm
          · exact h1 d hd
        · rw [h2]; simp [hx]
    · right
      refine ⟨k + 1, by simpa using hk, by simpa using h1, ?_, ?_⟩
      · intro k' h' hlt
        cases k' with
        | zero => omega
        | succ k' => simpa using h2 k' (by simpa using h') (by omega)
      · rw [h3]; congr 1; omega

theorem buildTable_spec (idx : α → Nat) {p : List α} (hp : p ≠ []) (x : Nat) :
    1 ≤ buildTable idx p x ∧ buildTable idx p x ≤ p.length + 1 ∧
      ∀ i (h : i < p.length), idx p[i] = x → buildTable idx p x ≤ p.length - i := by
  have hpos : 0 < p.length := List.length_pos_iff.2 hp
  unfold buildTable
  rw [if_neg (by omega)]
  rcases buildLoop_spec idx p.length p 0 (fun _ => p.length + 1) x with ⟨h1, h2⟩ | ⟨k, hk, h1, h2, h3⟩
  · rw [h2]
    refine ⟨by omega, by omega, ?_⟩
    intro i hi he
    exact absurd he (h1 _ (List.getElem_mem _))
  · rw [h3]
    refine ⟨by omega, by omega, ?_⟩
    intro i hi he
    have : i ≤ k := by
      by_contra hlt
      exact h2 i hi (by omega) he
    omega

/-- The occurrence is never jumped over. -/
theorem matchLoop_finds (idx : α → Nat) {p mem : List α} (hp : p ≠ []) {n k : Nat} (hn : n ≤ mem.length)
    (hk : FirstAt p (mem.take n) k) : ∀ off, off ≤ k →
      matchLoop idx (buildTable idx p) p mem n off = some (some k) := by
  have hpos : 0 < p.length := List.length_pos_iff.2 hp
  have hkn : k + p.length ≤ n := by
    have := occurs_length hk.1
    simp at this; omega
  intro off
  induction hd : k - off using Nat.strongRecOn generalizing off with
  | _ d ih =>
    intro hoff
    rw [matchLoop]
    obtain ⟨b, e1, e2⟩ := cmpBack_spec (p := p) (mem := mem) (off := off) p.length hpos (Nat.le_refl _) (by omega)
    rw [e1]
    cases b with
    | true =>
      have : OccursAt p (mem.take n) off := by
        rw [occurs_take hp (by omega), occurs_iff hp]; exact e2.1 rfl
      have : ¬ off < k := fun h => hk.2 off h this
      have : off = k := by omega
      subst this; rfl
    | false =>
      have hne : off ≠ k := by
        rintro rfl
        have h1 := hk.1
        rw [occurs_take hp (by omega), occurs_iff hp] at h1
        have := e2.2 h1
        cases this
      dsimp only
      rw [if_neg (by omega), List.getElem?_eq_getElem (by omega)]
      dsimp only
      obtain ⟨t1, t2, t3⟩ := buildTable_spec idx hp (idx (mem[off + p.length]'(by omega)))
      rw [dif_pos ⟨by omega, by omega⟩]
      refine ih _ ?_ _ rfl ?_
      · omega
      · by_contra hgt
        have h1 := hk.1
        rw [occurs_take hp (by omega), occurs_iff hp] at h1
        have h2 := h1 (off + p.length - k) (by omega)
        rw [show k + (off + p.length - k) = off + p.length by omega,
          List.getElem?_eq_getElem (l := mem) (by omega), List.getElem?_eq_getElem (l := p) (by omega)] at h2
        injection h2 with h2
        have := t3 (off + p.length - k) (by omega) (by rw [h2])
        omega

theorem cmpBack_true {p mem : List α} {off : Nat} : ∀ j, cmpBack p mem off j = some true →
    ∀ i < j, i < p.length ∧ mem[off + i]? = p[i]? := by
  intro j
  induction j with
  | zero => intro h; simp [cmpBack] at h
  | succ j ih =>
    intro h i hi
    rw [cmpBack] at h
    split at h
    · next a b ha hb =>
      split at h
      · next hab =>
        have hlt := (List.getElem?_eq_some_iff.1 ha).1
        rcases Nat.lt_succ_iff_lt_or_eq.1 hi with h' | rfl
        · split at h
          · omega
          · exact ih h i h'
        · exact ⟨hlt, by rw [ha, hb, hab]⟩
      · simp at h
    · simp at h

/-- Whatever is returned is an occurrence, in the range or over its end. -/
theorem matchLoop_sound (idx : α → Nat) {t : Nat → Nat} {p mem : List α} (hp : p ≠ []) {n k : Nat} : ∀ off,
    matchLoop idx t p mem n off = some (some k) → OccursAt p mem k := by
  intro off
  fun_induction matchLoop idx t p mem n off with
  | case1 => intro h; simp at h
  | case2 off h1 =>
    intro h
    injection h with h; injection h with h; subst h
    rw [occurs_iff hp]
    intro i hi
    exact (cmpBack_true _ h1 i hi).2
  | case3 => intro h; simp at h
  | case4 => intro h; simp at h
  | case5 off h1 h2 c h3 h4 ih => exact ih
  | case6 => intro h; simp at h

/-- With enough readable memory behind the range, starting with something that is not in the pattern, nothing else is
ever returned. -/
theorem matchLoop_padded (idx : α → Nat) {p mem : List α} (hp : p ≠ []) {n : Nat} {z : α} (hn : n + p.length ≤ mem.length)
    (hz : mem[n]? = some z) (hzp : z ∉ p) (hno : ∀ k, ¬ OccursAt p (mem.take n) k) : ∀ off, off ≤ n →
      matchLoop idx (buildTable idx p) p mem n off = some none := by
  have hpos : 0 < p.length := List.length_pos_iff.2 hp
  intro off
  induction hd : n - off using Nat.strongRecOn generalizing off with
  | _ d ih =>
    intro hoff
    rw [matchLoop]
    obtain ⟨b, e1, e2⟩ := cmpBack_spec (p := p) (mem := mem) (off := off) p.length hpos (Nat.le_refl _) (by omega)
    rw [e1]
    cases b with
    | true =>
      exfalso
      have h1 := e2.1 rfl
      by_cases hin : off + p.length ≤ n
      · exact hno off (by rw [occurs_take hp hin, occurs_iff hp]; exact h1)
      · have := h1 (n - off) (by omega)
        rw [show off + (n - off) = n by omega, hz] at this
        exact hzp (List.mem_of_getElem? this.symm)
    | false =>
      dsimp only
      by_cases hend : off + p.length ≥ n
      · rw [if_pos hend]
      · rw [if_neg hend, List.getElem?_eq_getElem (by omega)]
        dsimp only
        obtain ⟨t1, t2, _⟩ := buildTable_spec idx hp (idx (mem[off + p.length]'(by omega)))
        rw [dif_pos ⟨by omega, by omega⟩]
        exact ih _ (by omega) _ rfl (by omega)

/-! ### backwards -/

theorem cmpFwd_true {r : List α} {off : Nat} : ∀ (p : List α), cmpFwd r off p = some true →
    off + p.length ≤ r.length ∧ ∀ i < p.length, r[r.length - (off + p.length) + i]? = p[i]? := by
  intro p
  induction p with
  | nil => intro h; simp [cmpFwd] at h
  | cons a p ih =>
    intro h
    rw [cmpFwd] at h
    split at h
    · next hle =>
      split at h
      · next b hb =>
        split at h
        · next hab =>
          refine ⟨by simp; omega, ?_⟩
          intro i hi
          cases i with
          | zero =>
            simp only [List.length_cons, Nat.add_zero, List.getElem?_cons_zero]
            rw [show off + (p.length + 1) = off + p.length + 1 by omega, hb, hab]
          | succ i =>
            simp only [List.length_cons, List.getElem?_cons_succ] at hi ⊢
            split at h
            · omega
            · obtain ⟨_, h2⟩ := ih h
              have := h2 i (by omega)
              rw [← this]
              congr 1; omega
        · simp at h
      · simp at h
    · simp at h

theorem revMatchLoop_sound (idx : α → Nat) {t : Nat → Nat} {p r : List α} (hp : p ≠ []) {k : Nat} : ∀ off,
    revMatchLoop idx t p r off = some (some k) → OccursAt p r k := by
  intro off
  fun_induction revMatchLoop idx t p r off with
  | case1 => intro h; simp at h
  | case2 off h1 =>
    intro h
    injection h with h; injection h with h; subst h
    rw [occurs_iff hp]
    exact (cmpFwd_true p h1).2
  | case3 => intro h; simp at h
  | case4 => intro h; simp at h
  | case5 off h1 h2 c h3 h4 ih => exact ih
  | case6 => intro h; simp at h

theorem cmpFwd_of_eq {r : List α} {off : Nat} : ∀ (p : List α), p ≠ [] → off + p.length ≤ r.length →
    (∀ i < p.length, r[r.length - (off + p.length) + i]? = p[i]?) → cmpFwd r off p = some true := by
  intro p
  induction p with
  | nil => intro h; exact absurd rfl h
  | cons a p ih =>
    intro _ hle h
    simp only [List.length_cons] at hle h
    have h0 := h 0 (by omega)
    simp only [Nat.add_zero, List.getElem?_cons_zero] at h0
    rw [cmpFwd, if_pos (by omega), show off + p.length + 1 = off + (p.length + 1) by omega, h0]
    dsimp only
    rw [if_pos rfl]
    by_cases hp : p.length = 0
    · rw [if_pos hp]
    · rw [if_neg hp]
      apply ih (by intro h; simp [h] at hp) (by omega)
      intro i hi
      have := h (i + 1) (by omega)
      rw [List.getElem?_cons_succ] at this
      rw [← this]; congr 1; omega

theorem cmpFwd_first_ne {r : List α} {off : Nat} {a b : α} {p : List α} (hle : off + (p.length + 1) ≤ r.length)
    (h : r[r.length - (off + p.length + 1)]? = some b) (hne : a ≠ b) : cmpFwd r off (a :: p) = some false := by
  rw [cmpFwd, if_pos (by omega), h]
  dsimp only
  rw [if_neg hne]

theorem revBuildLoop_other (idx : α → Nat) : ∀ (cs : List α) (i : Nat) (t : Nat → Nat) (x : Nat),
    (∀ c ∈ cs, idx c ≠ x) → revBuildLoop idx i cs t x = t x := by
  intro cs
  induction cs with
  | nil => intro i t x _; rfl
  | cons c cs ih =>
    intro i t x h
    cases cs with
    | nil => rfl
    | cons d cs =>
      rw [revBuildLoop, ih _ _ _ (fun e he => h e (List.mem_cons_of_mem _ he))]
      rw [if_neg (fun e => h c (by simp) e.symm)]

theorem revMatchLoop_blocks (idx : α → Nat) {p b s : List α} (hp : p ≠ [])
    (hs : ∀ x ∈ s, ∀ c ∈ p, idx c ≠ idx x) : ∀ (k off : Nat), off + k * (p.length + 2) = s.length →
    revMatchLoop idx (revBuildTable idx p) p (b ++ p ++ s) off = some (some b.length) := by
  intro k
  induction k with
  | zero =>
    intro off h
    rw [Nat.zero_mul, Nat.add_zero] at h
    rw [revMatchLoop, cmpFwd_of_eq p hp (by simp; omega)]
    · simp; omega
    · intro i hi
      rw [List.append_assoc, List.getElem?_append_right (by simp; omega), List.getElem?_append_left (by simp; omega)]
      congr 1; simp; omega
  | succ k ih =>
    intro off h
    rw [Nat.succ_mul] at h
    have hlen : (b ++ p ++ s).length = b.length + p.length + s.length := by simp; omega
    have get : ∀ j, 0 < j → j ≤ s.length → ∃ x ∈ s, (b ++ p ++ s)[(b ++ p ++ s).length - j]? = some x := by
      intro j h0 hj
      refine ⟨s[s.length - j]'(by omega), List.getElem_mem _, ?_⟩
      rw [List.getElem?_append_right (by simp; omega), ← List.getElem?_eq_getElem]
      congr 1; simp; omega
    have hfalse : cmpFwd (b ++ p ++ s) off p = some false := by
      cases p with
      | nil => exact absurd rfl hp
      | cons a q =>
        simp only [List.length_cons] at h
        obtain ⟨x, hx, hg⟩ := get (off + q.length + 1) (by omega) (by omega)
        refine cmpFwd_first_ne (by rw [hlen]; simp; omega) hg ?_
        intro e; exact hs x hx a (by simp) (by rw [e])
    obtain ⟨x, hx, hg⟩ := get (off + p.length + 1) (by omega) (by omega)
    have ht : revBuildTable idx p (idx x) = p.length + 1 := by
      unfold revBuildTable
      rw [if_neg (by simpa using hp), revBuildLoop_other idx p 0 _ _ (hs x hx)]
    rw [revMatchLoop, hfalse]
    dsimp only
    rw [if_neg (by rw [hlen]; omega), hg]
    dsimp only
    rw [dif_pos (by rw [hlen]; omega), ht]
    exact ih _ (by omega)

theorem revMatchLoop_single (idx : α → Nat) (a : α) (r : List α) : ∀ (d off : Nat), d = r.length - off → 3 ∣ off →
    (∀ j, r[j]? = some a → 3 ∣ r.length - 1 - j → off ≤ r.length - 1 - j) →
    (∃ k, revMatchLoop idx (revBuildTable idx [a]) [a] r off = some (some k) ∧ r[k]? = some a ∧ 3 ∣ r.length - 1 - k ∧
      ∀ j, k < j → r[j]? = some a → ¬ 3 ∣ r.length - 1 - j) ∨
    ((∀ j, r[j]? = some a → ¬ 3 ∣ r.length - 1 - j) ∧
      revMatchLoop idx (revBuildTable idx [a]) [a] r off = if r.length % 3 = 1 ∧ off < r.length then some none else none) := by
  intro d
  induction d using Nat.strongRecOn with
  | ind d ih =>
    intro off hd h3 hinv
    by_cases hoff : off < r.length
    · have hg : r[r.length - (off + 1)]? = some (r[r.length - (off + 1)]'(by omega)) := List.getElem?_eq_getElem _
      by_cases he : a = r[r.length - (off + 1)]'(by omega)
      · left
        refine ⟨r.length - (off + 1), ?_, ?_, ?_, ?_⟩
        · rw [revMatchLoop, cmpFwd, if_pos (by simp; omega)]
          simp only [List.length_nil, Nat.add_zero]
          rw [hg]
          dsimp only
          rw [if_pos he]
          simp
        · rw [hg, ← he]
        · rw [show r.length - 1 - (r.length - (off + 1)) = off by omega]; exact h3
        · intro j hj hja hj3
          have := hinv j hja hj3
          have hlt : j < r.length := by
            rcases Nat.lt_or_ge j r.length with h | h
            · exact h
            · rw [List.getElem?_eq_none h] at hja; exact nomatch hja
          omega
      · have hf : cmpFwd r off [a] = some false := by
          rw [cmpFwd, if_pos (by simp; omega)]
          simp only [List.length_nil, Nat.add_zero]
          rw [hg]
          dsimp only
          rw [if_neg he]
        have hnext : ∀ j, r[j]? = some a → 3 ∣ r.length - 1 - j → off + 3 ≤ r.length - 1 - j := by
          intro j hja hj3
          have h1 := hinv j hja hj3
          rcases Nat.lt_or_ge off (r.length - 1 - j) with h | h
          · omega
          · exfalso
            have hlt : j < r.length := by
              rcases Nat.lt_or_ge j r.length with h | h
              · exact h
              · rw [List.getElem?_eq_none h] at hja; exact nomatch hja
            have : j = r.length - (off + 1) := by omega
            subst this
            rw [hg] at hja
            injection hja with hja
            exact he hja.symm
        by_cases hlast : off + 1 ≥ r.length
        · right
          refine ⟨fun j hja hj3 => ?_, ?_⟩
          · have := hnext j hja hj3; omega
          · rw [revMatchLoop, hf]
            dsimp only [List.length_cons, List.length_nil]
            rw [if_pos (by omega), if_pos (by omega)]
        · have hg2 : r[r.length - (off + 1 + 1)]? = some (r[r.length - (off + 1 + 1)]'(by omega)) :=
            List.getElem?_eq_getElem _
          have hstep : revMatchLoop idx (revBuildTable idx [a]) [a] r off =
              revMatchLoop idx (revBuildTable idx [a]) [a] r (off + 3) := by
            rw [revMatchLoop, hf]
            dsimp only [List.length_cons, List.length_nil]
            rw [if_neg (by omega), hg2]
            dsimp only
            rw [dif_pos hoff]
            rfl
          rcases ih (r.length - (off + 3)) (by omega) (off + 3) rfl (by omega) hnext with h | ⟨h1, h2⟩
          · left; rw [hstep]; exact h
          · right
            refine ⟨h1, ?_⟩
            rw [hstep, h2]
            by_cases hm : r.length % 3 = 1
            · rw [if_pos ⟨hm, by omega⟩, if_pos ⟨hm, hoff⟩]
            · rw [if_neg (fun h => hm h.1), if_neg (fun h => hm h.1)]
    · right
      refine ⟨fun j hja hj3 => ?_, ?_⟩
      · have h1 := hinv j hja hj3
        have hlt : j < r.length := by
          rcases Nat.lt_or_ge j r.length with h | h
          · exact h
          · rw [List.getElem?_eq_none h] at hja; exact nomatch hja
        omega
      · have hn : cmpFwd r off [a] = none := by rw [cmpFwd, if_neg (by simp; omega)]
        rw [revMatchLoop, hn]; dsimp only; rw [if_neg (by omega)]

/-! ### elements -/

theorem findFwd_spec {f : α → Bool} {P : α → Prop} (hf : ∀ x, f x = true ↔ P x) : ∀ (r : List α) (i : Nat),
    (findFwd f r i = none ∧ ∀ x ∈ r, ¬ P x) ∨
    ∃ k, findFwd f r i = some (i + k) ∧ (∃ x, r[k]? = some x ∧ P x) ∧ ∀ j < k, ∀ x, r[j]? = some x → ¬ P x := by
  intro r
  induction r with
  | nil => intro i; left; exact ⟨rfl, by simp⟩
  | cons x xs ih =>
    intro i
    rw [findFwd]
    by_cases hx : f x = true
    · rw [if_pos hx]
      right
      exact ⟨0, rfl, ⟨x, rfl, (hf x).1 hx⟩, by intro j hj; omega⟩
    · rw [if_neg hx]
      have hnx : ¬ P x := fun h => hx ((hf x).2 h)
      rcases ih (i + 1) with ⟨h1, h2⟩ | ⟨k, h1, h2, h3⟩
      · left
        refine ⟨h1, ?_⟩
        intro y hy
        rcases List.mem_cons.1 hy with rfl | hy
        · exact hnx
        · exact h2 y hy
      · right
        refine ⟨k + 1, by rw [h1]; congr 1; omega, h2, ?_⟩
        intro j hj y hy
        cases j with
        | zero => simp at hy; subst hy; exact hnx
        | succ j => exact h3 j (by omega) y hy

theorem findFwd_isFirst {f : α → Bool} {P : α → Prop} (hf : ∀ x, f x = true ↔ P x) (r : List α) :
    IsFirst P r (findFwd f r 0) := by
  rcases findFwd_spec hf r 0 with ⟨h1, h2⟩ | ⟨k, h1, h2, h3⟩
  · rw [h1]; exact h2
  · rw [h1, Nat.zero_add]; exact ⟨h2, h3⟩

theorem findBack_isLast {f : α → Bool} {P : α → Prop} (hf : ∀ x, f x = true ↔ P x) (r : List α) :
    IsLast P r (findBack f r) := by
  unfold findBack
  rcases findFwd_spec hf r.reverse 0 with ⟨h1, h2⟩ | ⟨k, h1, ⟨x, h2, hP⟩, h3⟩
  · rw [h1]
    intro x hx
    exact h2 x (List.mem_reverse.2 hx)
  · rw [h1, Nat.zero_add, Option.map_some]
    have hk : k < r.length := by
      have := (List.getElem?_eq_some_iff.1 h2).1
      simpa using this
    refine ⟨⟨x, ?_, hP⟩, ?_⟩
    · rw [List.getElem?_reverse hk] at h2; exact h2
    · intro j hj y hy
      have hjl := (List.getElem?_eq_some_iff.1 hy).1
      apply h3 (r.length - 1 - j) (by omega) y
      rw [List.getElem?_reverse (by omega), show r.length - 1 - (r.length - 1 - j) = j by omega]
      exact hy

theorem inRange_isSome (x : α) (p : List α) : (inRange x p).isSome = true ↔ x ∈ p := by
  unfold inRange
  rcases findFwd_spec (f := fun i => i == x) (P := fun i => i = x) (by simp) p 0 with ⟨h1, h2⟩ | ⟨k, h1, ⟨y, h2, rfl⟩, _⟩
  · rw [h1]
    constructor
    · intro h; simp at h
    · intro h; exact absurd rfl (h2 x h)
  · rw [h1]
    simp only [Option.isSome_some, true_iff]
    exact List.mem_of_getElem? h2

/-! ### bitmarks -/

/-- Values of an integer type: below 256 when it is not `wide`. -/
def Fits (wide : Bool) (c : Nat) : Prop := wide = false → c < 256

theorem mark_spec {wide : Bool} : ∀ (p : List Nat) (t t' : Nat → Bool), (∀ c ∈ p, Fits wide c) →
    mark wide p t = some t' → (∀ c ∈ p, c < 256) ∧ ∀ j, t' j = true ↔ (j ∈ p ∨ t j = true) := by
  intro p
  induction p with
  | nil => intro t t' _ h; simp [mark] at h; subst h; exact ⟨by simp, by simp⟩
  | cons c cs ih =>
    intro t t' hfit h
    rw [mark] at h
    split at h
    · cases h
    · next hc =>
      have hlt : c < 256 := by
        have := hfit c (by simp)
        cases wide
        · exact this rfl
        · simpa using hc
      obtain ⟨h1, h2⟩ := ih _ _ (fun d hd => hfit d (by simp [hd])) h
      refine ⟨?_, ?_⟩
      · intro d hd
        rcases List.mem_cons.1 hd with rfl | hd
        · exact hlt
        · exact h1 d hd
      · intro j
        rw [h2, Nat.mod_eq_of_lt hlt, List.mem_cons]
        by_cases hj : j = c
        · simp [hj]
        · simp [hj]

theorem marked_iff {wide : Bool} {p : List Nat} {t : Nat → Bool} (hp : ∀ c ∈ p, Fits wide c)
    (h : mark wide p (fun _ => false) = some t) {c : Nat} (hc : Fits wide c) : marked wide t c = true ↔ c ∈ p := by
  obtain ⟨h1, h2⟩ := mark_spec p _ t hp h
  unfold marked
  split
  · next hw =>
    simp only [Bool.and_eq_true, decide_eq_true_eq] at hw
    constructor
    · intro h; cases h
    · intro h; have := h1 c h; omega
  · next hw =>
    have hlt : c < 256 := by
      cases wide
      · exact hc rfl
      · simpa using hw
    rw [Nat.mod_eq_of_lt hlt, h2]; simp

theorem unindexMark_spec {wide : Bool} : ∀ (p : List Nat) (i : Nat) (t t' : Nat → Option Nat),
    (∀ c ∈ p, Fits wide c) → unindexMark wide i p t = some t' →
    (∀ c ∈ p, c < 256) ∧ p.Nodup ∧ (∀ c ∈ p, t c = none) ∧
      ∀ j, t' j = (match p.idxOf? j with | some k => some (i + k) | none => t j) := by
  intro p
  induction p with
  | nil => intro i t t' _ h; simp [unindexMark] at h; subst h; simp
  | cons c cs ih =>
    intro i t t' hfit h
    rw [unindexMark] at h
    split at h
    · cases h
    · next hc =>
      have hlt : c < 256 := by
        have := hfit c (by simp)
        cases wide
        · exact this rfl
        · simpa using hc
      split at h
      · cases h
      · next hs =>
        rw [Nat.mod_eq_of_lt hlt] at h hs
        have hs' : t c = none := by simpa using hs
        obtain ⟨h1, h2, h3, h4⟩ := ih _ _ _ (fun d hd => hfit d (by simp [hd])) h
        have hnotin : c ∉ cs := by
          intro hm
          have := h3 c hm
          simp at this
        refine ⟨?_, List.nodup_cons.2 ⟨hnotin, h2⟩, ?_, ?_⟩
        · intro d hd
          rcases List.mem_cons.1 hd with rfl | hd
          · exact hlt
          · exact h1 d hd
        · intro d hd
          rcases List.mem_cons.1 hd with rfl | hd
          · exact hs'
          · have := h3 d hd
            by_cases hdc : d = c
            · subst hdc; exact hs'
            · simpa [hdc] using this
        · intro j
          rw [h4 j, List.idxOf?_cons]
          by_cases hj : c = j
          · subst hj
            have : cs.idxOf? c = none := List.idxOf?_eq_none_iff.2 hnotin
            simp [this]
          · have hj' : ¬ j = c := fun h => hj h.symm
            cases hcs : cs.idxOf? j with
            | none => simp [hj, hj', hcs]
            | some k => simp [hj, hcs]; omega

theorem unindexMark_total {wide : Bool} : ∀ (p : List Nat) (i : Nat) (t : Nat → Option Nat),
    (∀ c ∈ p, c < 256) → p.Nodup → (∀ c ∈ p, t c = none) → ∃ t', unindexMark wide i p t = some t' := by
  intro p
  induction p with
  | nil => intro i t _ _ _; exact ⟨t, rfl⟩
  | cons c cs ih =>
    intro i t h1 h2 h3
    have hlt := h1 c (by simp)
    rw [unindexMark, if_neg (by simp; omega), Nat.mod_eq_of_lt hlt, if_neg (by simp [h3 c (by simp)])]
    rw [List.nodup_cons] at h2
    apply ih _ _ (fun d hd => h1 d (by simp [hd])) h2.2
    intro d hd
    have : d ≠ c := by rintro rfl; exact h2.1 hd
    simp [this, h3 d (by simp [hd])]

/-- Without the test for values from 256 on, the table is the one of the lowest bytes. -/
theorem unindexMark_low : ∀ (p : List Nat) (i : Nat) (t : Nat → Option Nat),
    unindexMark false i p t = unindexMark true i (p.map (· % 256)) t := by
  intro p
  induction p with
  | nil => intro i t; rfl
  | cons c cs ih =>
    intro i t
    rw [List.map_cons, unindexMark, unindexMark, ih, Nat.mod_mod]
    have : ¬ 256 ≤ c % 256 := by have := Nat.mod_lt c (show 0 < 256 by decide); omega
    simp [this]

theorem unindex_low (t : Nat → Option Nat) (c : Nat) : unindex false t c = unindex true t (c % 256) := by
  have : ¬ 256 ≤ c % 256 := by have := Nat.mod_lt c (show 0 < 256 by decide); omega
  simp [unindex, this]

theorem isWide_sixtyFour {w : Nat} (h : 64 ≤ w) : isWide w = false := by
  unfold isWide
  obtain ⟨k, rfl⟩ := Nat.exists_eq_add_of_le h
  rw [Nat.pow_add, Nat.mul_mod_right]
  rfl

/-- Without the test for values from 256 on, marking always succeeds, and the marks are those of the lowest bytes. -/
theorem mark_low : ∀ (p : List Nat) (t : Nat → Bool),
    ∃ t', mark false p t = some t' ∧ ∀ j, t' j = true ↔ (∃ d ∈ p, d % 256 = j) ∨ t j = true := by
  intro p
  induction p with
  | nil => intro t; exact ⟨t, rfl, by simp⟩
  | cons c cs ih =>
    intro t
    obtain ⟨t', h1, h2⟩ := ih (fun j => if j = c % 256 then true else t j)
    refine ⟨t', by rw [mark]; exact h1, fun j => ?_⟩
    rw [h2]
    simp only [List.mem_cons, exists_eq_or_imp]
    by_cases hj : j = c % 256
    · simp [hj]
    · have : ¬ c % 256 = j := fun h => hj h.symm
      simp [hj, this]

theorem marked_low {p : List Nat} {t : Nat → Bool} (h : ∀ j, t j = true ↔ (∃ d ∈ p, d % 256 = j) ∨ (fun _ => false) j = true) (c : Nat) :
    marked false t c = true ↔ ∃ d ∈ p, d % 256 = c % 256 := by
  simp [marked, h]

end ELC.Search
