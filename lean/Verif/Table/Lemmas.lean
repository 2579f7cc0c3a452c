import Verif.Table.Spec
import Mathlib.Data.List.Basic
import Mathlib.Data.List.Perm.Basic
import Mathlib.Data.List.Count
import Mathlib.Tactic.Tauto
namespace ELC.Table

variable {R K V : Type}

theorem takeFirst_none {p : R → Bool} : ∀ {l : List R}, takeFirst p l = none ↔ ∀ x ∈ l, p x = false := by
  intro l
  induction l with
  | nil => simp [takeFirst]
  | cons x xs ih =>
    rw [takeFirst]
    cases h : p x
    · simp only [Bool.false_eq_true, if_false, Option.map_eq_none_iff, ih, List.mem_cons, forall_eq_or_imp, h, true_and]
    · simp [h]

theorem takeFirst_some {p : R → Bool} : ∀ {l : List R} {r : R × List R}, takeFirst p l = some r →
    ∃ l1 l2, l = l1 ++ r.1 :: l2 ∧ r.2 = l1 ++ l2 ∧ p r.1 = true ∧ ∀ x ∈ l1, p x = false := by
  intro l
  induction l with
  | nil => intro r h; simp [takeFirst] at h
  | cons x xs ih =>
    intro r h
    rw [takeFirst] at h
    cases hp : p x
    · rw [if_neg (by simp [hp]), Option.map_eq_some_iff] at h
      obtain ⟨s, h1, rfl⟩ := h
      obtain ⟨l1, l2, e1, e2, e3, e4⟩ := ih h1
      exact ⟨x :: l1, l2, by simp [e1], by simp [e2], e3, by simpa [hp] using e4⟩
    · rw [if_pos hp] at h
      injection h with h; subst h
      exact ⟨[], xs, rfl, rfl, hp, by simp⟩

theorem takeFirst_find {p : R → Bool} {l : List R} {r : R × List R} (h : takeFirst p l = some r) :
    l.find? p = some r.1 ∧ l.eraseP p = r.2 := by
  obtain ⟨l1, l2, e1, e2, e3, e4⟩ := takeFirst_some h
  subst e1
  constructor
  · rw [List.find?_append, List.find?_eq_none.2 (by simpa using e4)]
    simp [e3]
  · rw [List.eraseP_append_right _ (by simpa using e4), List.eraseP_cons_of_pos e3, e2]

theorem takeFirst_perm {p : R → Bool} {l : List R} {r : R × List R} (h : takeFirst p l = some r) :
    (r.1 :: r.2).Perm l := by
  obtain ⟨l1, l2, e1, e2, -, -⟩ := takeFirst_some h
  rw [e1, e2]
  exact List.perm_middle.symm

theorem takeFirst_filter_same {p : R → Bool} {l : List R} {r : R × List R} (h : takeFirst p l = some r) :
    l.filter p = r.1 :: r.2.filter p := by
  obtain ⟨l1, l2, e1, e2, e3, e4⟩ := takeFirst_some h
  rw [e1, e2, List.filter_append, List.filter_append, List.filter_cons_of_pos e3,
    List.filter_eq_nil_iff.2 (by simpa using e4), List.nil_append, List.nil_append]

theorem takeFirst_filter_other {p q : R → Bool} {l : List R} {r : R × List R} (h : takeFirst p l = some r)
    (hq : ∀ x, p x = true → q x = false) : l.filter q = r.2.filter q := by
  obtain ⟨l1, l2, e1, e2, e3, e4⟩ := takeFirst_some h
  rw [e1, e2, List.filter_append, List.filter_append, List.filter_cons_of_neg (by simp [hq _ e3])]

/-! ### the records of a table -/

theorem records_append (a b : Table R) : records (a ++ b) = records a ++ records b := by
  induction a with
  | nil => rfl
  | cons x xs ih => simp [records, ih]

theorem size_append (a b : Table R) : size (a ++ b) = size a + size b := by
  induction a with
  | nil => simp [size]
  | cons x xs ih => simp [size, ih]; omega

theorem split_at {t : Table R} {i : Nat} {b : Bucket R} (h : t[i]? = some b) :
    t = t.take i ++ b :: t.drop (i + 1) ∧ ∀ b', t.set i b' = t.take i ++ b' :: t.drop (i + 1) := by
  obtain ⟨hi, hb⟩ := List.getElem?_eq_some_iff.1 h
  constructor
  · rw [← hb]
    simp
  · intro b'
    rw [List.set_eq_take_append_cons_drop, if_pos hi]

theorem records_at {t : Table R} {i : Nat} {b : Bucket R} (h : t[i]? = some b) :
    records t = records (t.take i) ++ (b.items ++ records (t.drop (i + 1))) ∧
    ∀ b', records (t.set i b') = records (t.take i) ++ (b'.items ++ records (t.drop (i + 1))) := by
  obtain ⟨h1, h2⟩ := split_at h
  constructor
  · conv_lhs => rw [h1]
    rw [records_append]; rfl
  · intro b'; rw [h2, records_append]; rfl

theorem size_at {t : Table R} {i : Nat} {b : Bucket R} (h : t[i]? = some b) (b' : Bucket R) :
    size (t.set i b') + b.size = size t + b'.size := by
  obtain ⟨h1, h2⟩ := split_at h
  have e1 : size t = size (t.take i) + (b.size + size (t.drop (i + 1))) := by
    conv_lhs => rw [h1]
    rw [size_append]; rfl
  have e2 : size (t.set i b') = size (t.take i) + (b'.size + size (t.drop (i + 1))) := by
    rw [h2, size_append]; rfl
  omega

theorem mem_records {t : Table R} {r : R} : r ∈ records t ↔ ∃ (i : Nat) (b : Bucket R), t[i]? = some b ∧ r ∈ b.items := by
  induction t with
  | nil => simp [records]
  | cons b bs ih =>
    rw [records, List.mem_append, ih]
    constructor
    · rintro (h | ⟨i, b', h1, h2⟩)
      · exact ⟨0, b, rfl, h⟩
      · exact ⟨i + 1, b', h1, h2⟩
    · rintro ⟨i, b', h1, h2⟩
      cases i with
      | zero => injection h1 with h1; subst h1; exact Or.inl h2
      | succ i => exact Or.inr ⟨i, b', h1, h2⟩

/-- Sizes are right. -/
def Sized (t : Table R) : Prop := ∀ b ∈ t, b.size = b.items.length

theorem sized_size : ∀ {t : Table R}, Sized t → size t = (records t).length
  | [], _ => rfl
  | b :: bs, h => by
    rw [size, records, List.length_append, h b (by simp), sized_size (fun x hx => h x (by simp [hx]))]

theorem sized_set {t : Table R} (h : Sized t) {i : Nat} {b : Bucket R} (hb : b.size = b.items.length) : Sized (t.set i b) := by
  intro x hx
  rcases List.mem_or_eq_of_mem_set hx with hx | rfl
  · exact h x hx
  · exact hb

theorem records_replicate (n : Nat) : records (List.replicate n (Bucket.empty : Bucket R)) = [] := by
  induction n with
  | zero => rfl
  | succ n ih => rw [List.replicate_succ, records, ih]; rfl

theorem sized_replicate (n : Nat) : Sized (List.replicate n (Bucket.empty : Bucket R)) := by
  intro b hb
  rw [(List.mem_replicate.1 hb).2]; rfl

/-! ### permutations: all that holds for an unstable hash -/

theorem push_some {t : Table R} (h0 : 0 < t.length) (h : Nat) (a : R) : ∃ t' n, push t h a = some (t', n) ∧
    t'.length = t.length ∧ (records t').Perm (a :: records t) ∧ (Sized t → Sized t' ∧ n ≤ (records t').length) := by
  have hi : h % t.length < t.length := Nat.mod_lt _ h0
  have hb : t[h % t.length]? = some t[h % t.length] := List.getElem?_eq_getElem hi
  refine ⟨_, _, by rw [push, hb]; rfl, by simp, ?_, ?_⟩
  · obtain ⟨h1, h2⟩ := records_at hb
    rw [h1, h2]
    exact List.perm_middle
  · intro hs
    have hbs := hs _ (List.getElem_mem hi)
    have hz : (Bucket.add t[h % t.length] a).size = (Bucket.add t[h % t.length] a).items.length := by
      simp [Bucket.add, hbs]
    refine ⟨sized_set hs hz, ?_⟩
    obtain ⟨h1, h2⟩ := records_at hb
    rw [h2, hz]
    simp only [List.length_append]
    omega

theorem drain_some (hash : R → Nat) : ∀ (l : List R) {t : Table R}, 0 < t.length → ∃ t', drain hash l t = some t' ∧
    t'.length = t.length ∧ (records t').Perm (l ++ records t) ∧ (Sized t → Sized t') := by
  intro l
  induction l with
  | nil => intro t _; exact ⟨t, rfl, rfl, List.Perm.refl _, id⟩
  | cons x xs ih =>
    intro t h0
    obtain ⟨t1, n, e1, e2, e3, e4⟩ := push_some h0 (hash x) x
    obtain ⟨t2, f1, f2, f3, f4⟩ := ih (t := t1) (by omega)
    refine ⟨t2, by rw [drain, e1]; exact f1, by omega, ?_, fun h => f4 (e4 h).1⟩
    exact f3.trans ((e3.append_left xs).trans (by simpa using (List.perm_middle (a := x) (l₁ := xs) (l₂ := records t))))

theorem drainAll_some (hash : R → Nat) : ∀ (bs : List (Bucket R)) {t : Table R}, 0 < t.length → ∃ t', drainAll hash bs t = some t' ∧
    t'.length = t.length ∧ (records t').Perm (records bs ++ records t) ∧ (Sized t → Sized t') := by
  intro bs
  induction bs with
  | nil => intro t _; exact ⟨t, rfl, rfl, List.Perm.refl _, id⟩
  | cons b bs ih =>
    intro t h0
    obtain ⟨t1, e1, e2, e3, e4⟩ := drain_some hash b.items h0
    obtain ⟨t2, f1, f2, f3, f4⟩ := ih (t := t1) (by omega)
    refine ⟨t2, by rw [drainAll, e1]; exact f1, by omega, ?_, fun h => f4 (e4 h)⟩
    rw [records]
    refine f3.trans ((e3.append_left _).trans ?_)
    rw [← List.append_assoc]
    exact List.perm_append_comm.append_right _

theorem add_some (C : Config R K) (hg : ∀ n, 0 < C.grow n) (hash : K → Nat) {t : Table R} (h0 : 0 < t.length) (a : R) :
    ∃ t', add C hash t a = some t' ∧ 0 < t'.length ∧ (records t').Perm (a :: records t) ∧ (Sized t → Sized t') := by
  obtain ⟨t1, n, e1, e2, e3, e4⟩ := push_some h0 (hash (C.key a)) a
  unfold add
  rw [e1]
  simp only [Option.bind_some]
  split
  · obtain ⟨t2, f1, f2, f3, f4⟩ := drainAll_some (fun r => hash (C.key r)) t1
      (t := List.replicate (C.grow t1.length) Bucket.empty) (by simpa using hg _)
    refine ⟨t2, f1, by rw [f2]; simpa using hg _, ?_, fun _ => f4 (sized_replicate _)⟩
    rw [records_replicate, List.append_nil] at f3
    exact f3.trans e3
  · exact ⟨t1, rfl, by omega, e3, fun h => (e4 h).1⟩

theorem bucket_find {p : R → Bool} (b : Bucket R) : (b.find p).1 = b.items.find? p ∧ (b.find p).2.items.Perm b.items ∧
    (b.find p).2.size = b.size := by
  unfold Bucket.find
  cases h : takeFirst p b.items with
  | none =>
    refine ⟨?_, List.Perm.refl _, rfl⟩
    rw [List.find?_eq_none.2 (by simpa using takeFirst_none.1 h)]
  | some r => exact ⟨(takeFirst_find h).1.symm, takeFirst_perm h, rfl⟩

theorem scanFind_spec (p : R → Bool) (skip : Nat) : ∀ (t : Table R) (i : Nat),
    (∀ b, i ≤ skip → t[skip - i]? = some b → ∀ x ∈ b.items, p x = false) →
    ((scanFind p skip i t).1.isSome ↔ ∃ x ∈ records t, p x = true) ∧
    (∀ x, (scanFind p skip i t).1 = some x → x ∈ records t ∧ p x = true) ∧
    (records (scanFind p skip i t).2).Perm (records t) ∧ (scanFind p skip i t).2.length = t.length ∧
    (Sized t → Sized (scanFind p skip i t).2) := by
  intro t
  induction t with
  | nil => intro i _; simp [scanFind, records]
  | cons b bs ih =>
    intro i hsk
    have hrest : ∀ b', i + 1 ≤ skip → bs[skip - (i + 1)]? = some b' → ∀ x ∈ b'.items, p x = false := by
      intro b' hle hb'
      apply hsk b' (by omega)
      rw [show skip - i = skip - (i + 1) + 1 by omega]
      exact hb'
    obtain ⟨h1, h2, h3, h4, h5⟩ := ih (i + 1) hrest
    rw [scanFind]
    by_cases hi : i = skip
    · rw [if_pos hi]
      have hb : ∀ x ∈ b.items, p x = false := hsk b (by omega) (by rw [hi, Nat.sub_self]; rfl)
      refine ⟨?_, ?_, ?_, by simp [h4], ?_⟩
      · rw [show (scanFind p skip (i + 1) bs).1.isSome ↔ _ from h1, records]
        constructor
        · rintro ⟨x, hx, hp⟩; exact ⟨x, by simp [hx], hp⟩
        · rintro ⟨x, hx, hp⟩
          rcases List.mem_append.1 hx with hx | hx
          · rw [hb x hx] at hp; cases hp
          · exact ⟨x, hx, hp⟩
      · intro x hx
        have := h2 x hx
        exact ⟨by rw [records]; simp [this.1], this.2⟩
      · exact h3.append_left _
      · intro hs x hx
        rcases List.mem_cons.1 hx with rfl | hx
        · exact hs _ (by simp)
        · exact h5 (fun y hy => hs y (by simp [hy])) x hx
    · rw [if_neg hi]
      obtain ⟨g1, g2, g3⟩ := bucket_find (p := p) b
      cases hbf : b.find p with
      | mk o b' =>
        rw [hbf] at g1 g2 g3
        dsimp only at g1 g2 g3
        cases o with
        | some x =>
          dsimp only
          have hx := List.find?_some g1.symm
          have hmem := List.mem_of_find?_eq_some g1.symm
          refine ⟨?_, ?_, g2.append_right _, by simp, ?_⟩
          · simp only [Option.isSome_some, true_iff]
            exact ⟨x, by rw [records]; simp [hmem], hx⟩
          · intro y hy
            injection hy with hy; subst hy
            exact ⟨by rw [records]; simp [hmem], hx⟩
          · intro hs y hy
            rcases List.mem_cons.1 hy with rfl | hy
            · rw [g3, hs b (by simp), g2.length_eq]
            · exact hs y (by simp [hy])
        | none =>
          dsimp only
          have hb : ∀ x ∈ b.items, p x = false := by
            have := List.find?_eq_none.1 g1.symm
            simpa using this
          refine ⟨?_, ?_, g2.append h3, by simp [h4], ?_⟩
          · rw [show (scanFind p skip (i + 1) bs).1.isSome ↔ _ from h1, records]
            constructor
            · rintro ⟨x, hx, hp⟩; exact ⟨x, by simp [hx], hp⟩
            · rintro ⟨x, hx, hp⟩
              rcases List.mem_append.1 hx with hx | hx
              · rw [hb x hx] at hp; cases hp
              · exact ⟨x, hx, hp⟩
          · intro x hx
            have := h2 x hx
            exact ⟨by rw [records]; simp [this.1], this.2⟩
          · intro hs y hy
            rcases List.mem_cons.1 hy with rfl | hy
            · rw [g3, hs b (by simp), g2.length_eq]
            · exact h5 (fun z hz => hs z (by simp [hz])) y hy

theorem bucket_remove {p : R → Bool} (b : Bucket R) (hs : b.size = b.items.length) :
    ((b.remove p).1 = true ∧ ∃ x, p x = true ∧ (x :: (b.remove p).2.items).Perm b.items ∧
      (b.remove p).2.size = (b.remove p).2.items.length) ∨
    ((b.remove p).1 = false ∧ (b.remove p).2 = b ∧ ∀ x ∈ b.items, p x = false) := by
  unfold Bucket.remove
  cases h : takeFirst p b.items with
  | none => exact Or.inr ⟨rfl, rfl, takeFirst_none.1 h⟩
  | some r =>
    have hp := takeFirst_perm h
    obtain ⟨_, _, _, _, e3, _⟩ := takeFirst_some h
    refine Or.inl ⟨rfl, r.1, e3, hp, ?_⟩
    have := hp.length_eq
    rw [List.length_cons] at this
    show b.size - 1 = r.2.length
    omega

theorem scanRemove_spec (p : R → Bool) (skip : Nat) : ∀ (t : Table R) (i : Nat), Sized t →
    (∀ b, i ≤ skip → t[skip - i]? = some b → ∀ x ∈ b.items, p x = false) →
    (((scanRemove p skip i t).1 = true ∧ ∃ x, p x = true ∧ (x :: records (scanRemove p skip i t).2).Perm (records t)) ∨
      ((scanRemove p skip i t).1 = false ∧ (scanRemove p skip i t).2 = t ∧ ∀ x ∈ records t, p x = false)) ∧
    (scanRemove p skip i t).2.length = t.length ∧ Sized (scanRemove p skip i t).2 := by
  intro t
  induction t with
  | nil => intro i hs _; simp [scanRemove, records, Sized]
  | cons b bs ih =>
    intro i hs hsk
    have hrest : ∀ b', i + 1 ≤ skip → bs[skip - (i + 1)]? = some b' → ∀ x ∈ b'.items, p x = false := by
      intro b' hle hb'
      apply hsk b' (by omega)
      rw [show skip - i = skip - (i + 1) + 1 by omega]
      exact hb'
    have hsb : b.size = b.items.length := hs b (by simp)
    obtain ⟨h1, h2, h3⟩ := ih (i + 1) (fun y hy => hs y (by simp [hy])) hrest
    have hcons : ∀ b' : Bucket R, b'.size = b'.items.length → Sized (b' :: (scanRemove p skip (i + 1) bs).2) := by
      intro b' hb' y hy
      rcases List.mem_cons.1 hy with rfl | hy
      · exact hb'
      · exact h3 y hy
    have hpass : (∀ x ∈ b.items, p x = false) →
        (((scanRemove p skip (i + 1) bs).1 = true ∧
          ∃ x, p x = true ∧ (x :: records (b :: (scanRemove p skip (i + 1) bs).2)).Perm (records (b :: bs))) ∨
        ((scanRemove p skip (i + 1) bs).1 = false ∧ b :: (scanRemove p skip (i + 1) bs).2 = b :: bs ∧
          ∀ x ∈ records (b :: bs), p x = false)) := by
      intro hb
      rcases h1 with ⟨g1, x, g2, g3⟩ | ⟨g1, g2, g3⟩
      · refine Or.inl ⟨g1, x, g2, ?_⟩
        rw [records, records]
        exact List.perm_middle.symm.trans (g3.append_left _)
      · refine Or.inr ⟨g1, by rw [g2], ?_⟩
        intro x hx
        rw [records] at hx
        rcases List.mem_append.1 hx with hx | hx
        · exact hb x hx
        · exact g3 x hx
    rw [scanRemove]
    by_cases hi : i = skip
    · rw [if_pos hi]
      have hb : ∀ x ∈ b.items, p x = false := hsk b (by omega) (by rw [hi, Nat.sub_self]; rfl)
      exact ⟨hpass hb, by simp [h2], hcons b hsb⟩
    · rw [if_neg hi]
      have hbr := bucket_remove (p := p) b hsb
      cases hbf : b.remove p with
      | mk o b' =>
        rw [hbf] at hbr
        dsimp only at hbr
        cases o with
        | true =>
          dsimp only
          rcases hbr with ⟨_, x, g2, g3, g4⟩ | ⟨g, _⟩
          · refine ⟨Or.inl ⟨rfl, x, g2, ?_⟩, by simp, ?_⟩
            · rw [records, records]
              exact g3.append_right _
            · intro y hy
              rcases List.mem_cons.1 hy with rfl | hy
              · exact g4
              · exact hs y (by simp [hy])
          · cases g
        | false =>
          dsimp only
          rcases hbr with ⟨g, _⟩ | ⟨_, rfl, g3⟩
          · cases g
          · exact ⟨hpass g3, by simp [h2], hcons _ hsb⟩

/-! ### one call and the keys present -/

section Keys
variable [DecidableEq K]

theorem find_keys (C : Config R K) (unstable : Bool) (hash : K → Nat) {t : Table R} (h0 : 0 < t.length)
    (hu : unstable = true ∨ ∀ i b, t[i]? = some b → ∀ r ∈ b.items, hash (C.key r) % t.length = i) (k : K) :
    ∃ o t', find C unstable hash t k = some (o, t') ∧ t'.length = t.length ∧ (records t').Perm (records t) ∧
      (Sized t → Sized t') ∧ (o.isSome ↔ ∃ r ∈ records t, C.key r = k) ∧ ∀ r, o = some r → r ∈ records t ∧ C.key r = k := by
  have hi : hash k % t.length < t.length := Nat.mod_lt _ h0
  have hb : t[hash k % t.length]? = some t[hash k % t.length] := List.getElem?_eq_getElem hi
  generalize t[hash k % t.length] = b at hb
  unfold find
  rw [hb, Option.map_some]
  obtain ⟨g1, g2, g3⟩ := bucket_find (p := fun r => decide (C.key r = k)) b
  cases hbf : b.find (fun r => decide (C.key r = k)) with
  | mk o b' =>
    rw [hbf] at g1 g2 g3
    dsimp only at g1 g2 g3
    cases o with
    | some x =>
      dsimp only
      have hx := List.find?_some g1.symm
      have hmem := List.mem_of_find?_eq_some g1.symm
      have hxr : x ∈ records t := mem_records.2 ⟨_, _, hb, hmem⟩
      have hxk : C.key x = k := by simpa using hx
      refine ⟨_, _, rfl, by simp, ?_, ?_, ?_, ?_⟩
      · obtain ⟨r1, r2⟩ := records_at hb
        rw [r1, r2]
        exact (g2.append_right _).append_left _
      · intro hs
        apply sized_set hs
        rw [g3, hs b (List.mem_of_getElem? hb), g2.length_eq]
      · simp only [Option.isSome_some, true_iff]
        exact ⟨x, hxr, hxk⟩
      · intro r hr
        injection hr with hr; subst hr
        exact ⟨hxr, hxk⟩
    | none =>
      dsimp only
      have hnb : ∀ x ∈ b.items, decide (C.key x = k) = false := by
        have := List.find?_eq_none.1 g1.symm
        simpa using this
      cases unstable with
      | true =>
        rw [if_pos rfl]
        obtain ⟨s1, s2, s3, s4, s5⟩ := scanFind_spec (fun r => decide (C.key r = k)) (hash k % t.length) t 0 (by
          intro b2 _ hb2
          rw [Nat.sub_zero, hb] at hb2
          injection hb2 with hb2; subst hb2; exact hnb)
        refine ⟨_, _, rfl, s4, s3, s5, ?_, ?_⟩
        · simpa using s1
        · intro r hr; simpa using s2 r hr
      | false =>
        rw [if_neg (by simp)]
        refine ⟨_, _, rfl, rfl, List.Perm.refl _, id, ?_, by simp⟩
        simp only [Option.isSome_none, Bool.false_eq_true, false_iff]
        rintro ⟨r, hr, hk⟩
        obtain ⟨i, b2, hb2, hr2⟩ := mem_records.1 hr
        rcases hu with hu | hu
        · cases hu
        · have := hu i b2 hb2 r hr2
          rw [hk] at this
          rw [← this, hb] at hb2
          injection hb2 with hb2; subst hb2
          have := hnb r hr2
          simp [hk] at this

theorem remove_keys (C : Config R K) (unstable : Bool) (hash : K → Nat) {t : Table R} (h0 : 0 < t.length) (hs : Sized t)
    (hu : unstable = true ∨ ∀ i b, t[i]? = some b → ∀ r ∈ b.items, hash (C.key r) % t.length = i) (k : K) :
    ∃ o t', remove C unstable hash t k = some (o, t') ∧ t'.length = t.length ∧ Sized t' ∧
      ((o = true ∧ ∃ r, C.key r = k ∧ (r :: records t').Perm (records t)) ∨
       (o = false ∧ t' = t ∧ ∀ r ∈ records t, C.key r ≠ k)) := by
  have hi : hash k % t.length < t.length := Nat.mod_lt _ h0
  have hb : t[hash k % t.length]? = some t[hash k % t.length] := List.getElem?_eq_getElem hi
  generalize t[hash k % t.length] = b at hb
  unfold remove
  rw [hb, Option.map_some]
  have hbr := bucket_remove (p := fun r => decide (C.key r = k)) b (hs b (List.mem_of_getElem? hb))
  cases hbf : b.remove (fun r => decide (C.key r = k)) with
  | mk o b' =>
    rw [hbf] at hbr
    dsimp only at hbr
    cases o with
    | true =>
      dsimp only
      rcases hbr with ⟨_, x, g2, g3, g4⟩ | ⟨g, _⟩
      · refine ⟨_, _, rfl, by simp, sized_set hs g4, Or.inl ⟨rfl, x, by simpa using g2, ?_⟩⟩
        obtain ⟨r1, r2⟩ := records_at hb
        rw [r1, r2]
        refine List.perm_middle.symm.trans ?_
        rw [← List.cons_append]
        exact (g3.append_right _).append_left _
      · cases g
    | false =>
      dsimp only
      rcases hbr with ⟨g, _⟩ | ⟨_, rfl, hnb⟩
      · cases g
      · cases unstable with
        | true =>
          rw [if_pos rfl]
          obtain ⟨s1, s2, s3⟩ := scanRemove_spec (fun r => decide (C.key r = k)) (hash k % t.length) t 0 hs (by
            intro b2 _ hb2
            rw [Nat.sub_zero, hb] at hb2
            injection hb2 with hb2; subst hb2; exact hnb)
          refine ⟨_, _, rfl, s2, s3, ?_⟩
          simpa using s1
        | false =>
          rw [if_neg (by simp)]
          refine ⟨_, _, rfl, rfl, hs, Or.inr ⟨rfl, rfl, ?_⟩⟩
          intro r hr hk
          obtain ⟨i, b2, hb2, hr2⟩ := mem_records.1 hr
          rcases hu with hu | hu
          · cases hu
          · have := hu i b2 hb2 r hr2
            rw [hk] at this
            rw [← this, hb] at hb2
            injection hb2 with hb2; subst hb2
            have := hnb r hr2
            simp [hk] at this

end Keys

/-! ### a stable hash: every record is in its bucket, and the order within a key is kept -/

/-- Every record is in the bucket its hash selects. -/
def Placed (C : Config R K) (hash : K → Nat) (t : Table R) : Prop :=
  ∀ i b, t[i]? = some b → ∀ r ∈ b.items, hash (C.key r) % t.length = i

theorem placed_replicate (C : Config R K) (hash : K → Nat) (n : Nat) :
    Placed C hash (List.replicate n (Bucket.empty : Bucket R)) := by
  intro i b hb r hr
  have := List.mem_of_getElem? hb
  rw [(List.mem_replicate.1 this).2] at hr
  cases hr

theorem placed_set {C : Config R K} {hash : K → Nat} {t : Table R} (h : Placed C hash t) {i : Nat} {b : Bucket R}
    (hb : ∀ r ∈ b.items, hash (C.key r) % t.length = i) : Placed C hash (t.set i b) := by
  intro j b' hj r hr
  rw [List.length_set]
  rw [List.getElem?_set] at hj
  split at hj
  · next hij =>
    split at hj
    · injection hj with hj; subst hj; subst hij; exact hb r hr
    · cases hj
  · exact h j b' hj r hr

section Stable
variable [DecidableEq K]

/-- The records with key `k`, in order. -/
def ofKey (C : Config R K) (k : K) (l : List R) : List R := l.filter fun r => decide (C.key r = k)

theorem ofKey_nil_of {C : Config R K} {k : K} {l : List R} (h : ∀ r ∈ l, C.key r ≠ k) : ofKey C k l = [] := by
  apply List.filter_eq_nil_iff.2
  simpa using h

theorem mem_take_records {t : Table R} {i : Nat} {r : R} (h : r ∈ records (t.take i)) :
    ∃ (j : Nat) (b : Bucket R), j < i ∧ t[j]? = some b ∧ r ∈ b.items := by
  obtain ⟨j, b, h1, h2⟩ := mem_records.1 h
  rw [List.getElem?_take] at h1
  split at h1
  · next hj => exact ⟨j, b, hj, h1, h2⟩
  · cases h1

theorem mem_drop_records {t : Table R} {i : Nat} {r : R} (h : r ∈ records (t.drop i)) :
    ∃ (j : Nat) (b : Bucket R), i ≤ j ∧ t[j]? = some b ∧ r ∈ b.items := by
  obtain ⟨j, b, h1, h2⟩ := mem_records.1 h
  rw [List.getElem?_drop] at h1
  exact ⟨i + j, b, by omega, h1, h2⟩

/-- The records of a key are those of its bucket. -/
theorem ofKey_records {C : Config R K} {hash : K → Nat} {t : Table R} (hp : Placed C hash t) {i : Nat} {b : Bucket R}
    (hb : t[i]? = some b) {k : K} (hk : hash k % t.length = i) :
    ofKey C k (records t) = ofKey C k b.items ∧ ∀ b', ofKey C k (records (t.set i b')) = ofKey C k b'.items := by
  have h1 : ofKey C k (records (t.take i)) = [] := by
    apply ofKey_nil_of
    rintro r hr rfl
    obtain ⟨j, b2, hj, hb2, hr2⟩ := mem_take_records hr
    have := hp j b2 hb2 r hr2
    omega
  have h2 : ofKey C k (records (t.drop (i + 1))) = [] := by
    apply ofKey_nil_of
    rintro r hr rfl
    obtain ⟨j, b2, hj, hb2, hr2⟩ := mem_drop_records hr
    have := hp j b2 hb2 r hr2
    omega
  obtain ⟨r1, r2⟩ := records_at hb
  unfold ofKey at *
  constructor
  · rw [r1, List.filter_append, List.filter_append, h1, h2]; simp
  · intro b'; rw [r2, List.filter_append, List.filter_append, h1, h2]; simp

/-- A change of a bucket that leaves the records of a key alone. -/
theorem ofKey_set_other {C : Config R K} {t : Table R} {i : Nat} {b b' : Bucket R} (hb : t[i]? = some b) {k : K}
    (h : ofKey C k b'.items = ofKey C k b.items) : ofKey C k (records (t.set i b')) = ofKey C k (records t) := by
  obtain ⟨r1, r2⟩ := records_at hb
  unfold ofKey at *
  rw [r1, r2, List.filter_append, List.filter_append, List.filter_append, List.filter_append, h]

theorem push_stable (C : Config R K) (hash : K → Nat) {t : Table R} (h0 : 0 < t.length) (hp : Placed C hash t) (a : R)
    {t' : Table R} {n : Nat} (h : push t (hash (C.key a)) a = some (t', n)) :
    Placed C hash t' ∧ ∀ k, ofKey C k (records t') = ofKey C k (a :: records t) := by
  have hi : hash (C.key a) % t.length < t.length := Nat.mod_lt _ h0
  have hb : t[hash (C.key a) % t.length]? = some t[hash (C.key a) % t.length] := List.getElem?_eq_getElem hi
  generalize t[hash (C.key a) % t.length] = b at hb
  unfold push at h
  rw [hb, Option.map_some] at h
  injection h with h
  injection h with h _
  subst h
  refine ⟨placed_set hp ?_, ?_⟩
  · intro r hr
    rcases List.mem_cons.1 hr with rfl | hr
    · rfl
    · exact hp _ _ hb r hr
  · intro k
    by_cases hk : C.key a = k
    · subst hk
      obtain ⟨e1, e2⟩ := ofKey_records hp hb (k := C.key a) rfl
      rw [e2]
      show List.filter _ (a :: b.items) = _
      rw [List.filter_cons_of_pos (by simp)]
      unfold ofKey at e1 ⊢
      rw [List.filter_cons_of_pos (by simp), e1]
    · rw [ofKey_set_other hb]
      · unfold ofKey; rw [List.filter_cons_of_neg (by simp [hk])]
      · show List.filter _ (a :: b.items) = _
        rw [List.filter_cons_of_neg (by simp [hk])]; rfl

theorem drain_stable (C : Config R K) (hash : K → Nat) : ∀ (l : List R) {t t' : Table R}, 0 < t.length → Placed C hash t →
    drain (fun r => hash (C.key r)) l t = some t' →
    Placed C hash t' ∧ t'.length = t.length ∧ ∀ k, ofKey C k (records t') = (ofKey C k l).reverse ++ ofKey C k (records t) := by
  intro l
  induction l with
  | nil => intro t t' _ hp h; injection h with h; subst h; exact ⟨hp, rfl, fun k => rfl⟩
  | cons x xs ih =>
    intro t t' h0 hp h
    rw [drain, Option.bind_eq_some_iff] at h
    obtain ⟨⟨t1, n⟩, h1, h2⟩ := h
    obtain ⟨e1, e2⟩ := push_stable C hash h0 hp x h1
    obtain ⟨_, _, f1, f2, _⟩ := push_some h0 (hash (C.key x)) x
    rw [h1] at f1
    injection f1 with f1; injection f1 with f1 _; subst f1
    obtain ⟨g1, g2, g3⟩ := ih (t := t1) (by omega) e1 h2
    refine ⟨g1, by omega, ?_⟩
    intro k
    rw [g3, e2]
    unfold ofKey
    by_cases hk : C.key x = k
    · rw [List.filter_cons_of_pos (by simp [hk]), List.filter_cons_of_pos (by simp [hk])]; simp
    · rw [List.filter_cons_of_neg (by simp [hk]), List.filter_cons_of_neg (by simp [hk])]

/-- Within a key, growing reverses the order. -/
theorem drainAll_stable (C : Config R K) (hash : K → Nat) : ∀ (bs : List (Bucket R)) {t t' : Table R}, 0 < t.length →
    Placed C hash t → drainAll (fun r => hash (C.key r)) bs t = some t' →
    Placed C hash t' ∧ t'.length = t.length ∧
      ∀ k, (∀ (i : Nat) (b : Bucket R) (j : Nat) (b' : Bucket R), bs[i]? = some b → bs[j]? = some b' → ofKey C k b.items ≠ [] → ofKey C k b'.items ≠ [] → i = j) →
        ofKey C k (records t') = (ofKey C k (records bs)).reverse ++ ofKey C k (records t) := by
  intro bs
  induction bs with
  | nil => intro t t' _ hp h; injection h with h; subst h; exact ⟨hp, rfl, fun k _ => rfl⟩
  | cons b bs ih =>
    intro t t' h0 hp h
    rw [drainAll, Option.bind_eq_some_iff] at h
    obtain ⟨t1, h1, h2⟩ := h
    obtain ⟨e1, e2, e3⟩ := drain_stable C hash b.items h0 hp h1
    obtain ⟨g1, g2, g3⟩ := ih (t := t1) (by omega) e1 h2
    refine ⟨g1, by omega, ?_⟩
    intro k hk
    rw [g3 k (fun i b1 j b2 hi hj h1 h2 => by
      have := hk (i + 1) b1 (j + 1) b2 hi hj h1 h2; omega), e3]
    have hrec : ofKey C k (records (b :: bs)) = ofKey C k b.items ++ ofKey C k (records bs) := by
      unfold ofKey; rw [records, List.filter_append]
    rw [hrec]
    by_cases hb : ofKey C k b.items = []
    · simp [hb]
    · have : ofKey C k (records bs) = [] := by
        apply List.filter_eq_nil_iff.2
        intro r hr hkr
        obtain ⟨j, b2, hj, hr2⟩ := mem_records.1 hr
        have hne : ofKey C k b2.items ≠ [] := by
          intro h
          have := List.filter_eq_nil_iff.1 h r hr2
          exact this hkr
        have := hk 0 b (j + 1) b2 rfl hj hb hne
        omega
      rw [this]; simp

theorem add_stable (C : Config R K) (hg : ∀ n, 0 < C.grow n) (hash : K → Nat) {t : Table R} (h0 : 0 < t.length)
    (hp : Placed C hash t) (a : R) {t' : Table R} (h : add C hash t a = some t') :
    Placed C hash t' ∧
      ((∀ k, ofKey C k (records t') = ofKey C k (a :: records t)) ∨
       ((∀ k, ofKey C k (records t') = (ofKey C k (a :: records t)).reverse) ∧
        (Sized t → C.limit < (records t).length + 1))) := by
  unfold add at h
  rw [Option.bind_eq_some_iff] at h
  obtain ⟨⟨t1, n⟩, h1, h2⟩ := h
  obtain ⟨e1, e2⟩ := push_stable C hash h0 hp a h1
  obtain ⟨_, _, f1, f2, f3, f4⟩ := push_some h0 (hash (C.key a)) a
  rw [h1] at f1
  injection f1 with f1; injection f1 with f1 f1'; subst f1; subst f1'
  dsimp only at h2
  split at h2
  · next hlim =>
    obtain ⟨g1, g2, g3⟩ := drainAll_stable C hash t1 (by simpa using hg _) (placed_replicate C hash _) h2
    refine ⟨g1, Or.inr ⟨?_, ?_⟩⟩
    · intro k
      rw [g3 k ?_, records_replicate, e2]
      · simp [ofKey]
      · intro i b j b' hi hj hb hb'
        have key : ∀ (i : Nat) (b : Bucket R), t1[i]? = some b → ofKey C k b.items ≠ [] → hash k % t1.length = i := by
          intro i b hi hb
          obtain ⟨r, hr⟩ := List.exists_mem_of_ne_nil _ hb
          have hr' := List.mem_filter.1 hr
          have := e1 i b hi r hr'.1
          have hk : C.key r = k := by simpa using hr'.2
          rwa [hk] at this
        rw [← key i b hi hb, ← key j b' hj hb']
    · intro hs
      have := (f4 hs).2
      rw [f3.length_eq] at this
      simp only [List.length_cons] at this
      omega
  · injection h2 with h2; subst h2
    exact ⟨e1, Or.inl e2⟩

theorem head_filter {p : R → Bool} (l : List R) : l.find? p = (l.filter p).head? := by
  induction l with
  | nil => rfl
  | cons x xs ih =>
    cases h : p x
    · rw [List.find?_cons_of_neg (by simp [h]), List.filter_cons_of_neg (by simp [h]), ih]
    · rw [List.find?_cons_of_pos h, List.filter_cons_of_pos h]; rfl

theorem find_stable (C : Config R K) (hash : K → Nat) {t : Table R} (hp : Placed C hash t) (k : K)
    {o : Option R} {t' : Table R} (h : find C false hash t k = some (o, t')) :
    Placed C hash t' ∧ o = (records t).find? (fun r => decide (C.key r = k)) ∧
      (∀ j, ofKey C j (records t') = ofKey C j (records t)) ∧
      (∀ r, o = some r → ∃ b, t'[hash k % t'.length]? = some b ∧ b.items.head? = some r) := by
  unfold find at h
  rw [Option.map_eq_some_iff] at h
  obtain ⟨b, hb, h⟩ := h
  have hk := ofKey_records hp hb (k := k) rfl
  have hfind : (records t).find? (fun r => decide (C.key r = k)) = b.items.find? (fun r => decide (C.key r = k)) := by
    rw [head_filter, head_filter]
    exact congrArg List.head? hk.1
  unfold Bucket.find at h
  cases htf : takeFirst (fun r => decide (C.key r = k)) b.items with
  | none =>
    rw [htf] at h
    simp only [Bool.false_eq_true, if_false] at h
    injection h with h1 h2
    subst h1; subst h2
    refine ⟨hp, ?_, fun _ => rfl, by simp⟩
    rw [hfind, List.find?_eq_none.2 (by simpa using takeFirst_none.1 htf)]
  | some r =>
    rw [htf] at h
    dsimp only at h
    injection h with h1 h2
    subst h1; subst h2
    refine ⟨placed_set hp ?_, ?_, ?_, ?_⟩
    · intro x hx
      have := (takeFirst_perm htf).mem_iff.1 hx
      exact hp _ _ hb x this
    · rw [hfind, (takeFirst_find htf).1]
    · intro j
      apply ofKey_set_other hb
      show List.filter _ (r.1 :: r.2) = List.filter _ b.items
      obtain ⟨_, _, _, _, e3, _⟩ := takeFirst_some htf
      have hrk : C.key r.1 = k := by simpa using e3
      by_cases hj : j = k
      · subst hj
        rw [takeFirst_filter_same htf, List.filter_cons_of_pos (by simp [hrk])]
      · rw [takeFirst_filter_other htf (by intro x hx; simp only [decide_eq_true_eq] at hx; simp [hx, Ne.symm hj]),
          List.filter_cons_of_neg (by rw [hrk]; simp [Ne.symm hj])]
    · intro x hx
      injection hx with hx; subst hx
      obtain ⟨hi, _⟩ := List.getElem?_eq_some_iff.1 hb
      rw [List.length_set]
      exact ⟨_, by rw [List.getElem?_set_self hi], rfl⟩

theorem ofKey_eraseP (C : Config R K) (k : K) : ∀ (l : List R) j, ofKey C j (l.eraseP fun r => decide (C.key r = k)) =
      if j = k then (ofKey C k l).tail else ofKey C j l := by
    intro l j
    unfold ofKey
    induction l with
    | nil => simp
    | cons x xs ih =>
      by_cases hx : C.key x = k
      · rw [List.eraseP_cons_of_pos (by simp [hx])]
        by_cases hj : j = k
        · rw [if_pos hj, hj, List.filter_cons_of_pos (by simp [hx])]; rfl
        · rw [if_neg hj, List.filter_cons_of_neg (by simp [hx, Ne.symm hj])]
      · rw [List.eraseP_cons_of_neg (by simp [hx])]
        by_cases hj : j = k
        · rw [if_pos hj] at ih ⊢
          rw [List.filter_cons_of_neg (by rw [hj]; simp [hx]), ih, List.filter_cons_of_neg (by simp [hx])]
        · rw [if_neg hj] at ih ⊢
          by_cases hxj : C.key x = j
          · rw [List.filter_cons_of_pos (by simp [hxj]), List.filter_cons_of_pos (by simp [hxj]), ih]
          · rw [List.filter_cons_of_neg (by simp [hxj]), List.filter_cons_of_neg (by simp [hxj]), ih]

theorem remove_stable (C : Config R K) (hash : K → Nat) {t : Table R} (hp : Placed C hash t) (k : K)
    {o : Bool} {t' : Table R} (h : remove C false hash t k = some (o, t')) :
    Placed C hash t' ∧ o = (records t).any (fun r => decide (C.key r = k)) ∧
      (∀ j, ofKey C j (records t') = ofKey C j ((records t).eraseP fun r => decide (C.key r = k))) := by
  unfold remove at h
  rw [Option.map_eq_some_iff] at h
  obtain ⟨b, hb, h⟩ := h
  have hk := ofKey_records hp hb (k := k) rfl
  have hfind : (records t).find? (fun r => decide (C.key r = k)) = b.items.find? (fun r => decide (C.key r = k)) := by
    rw [head_filter, head_filter]
    exact congrArg List.head? hk.1
  have herase := ofKey_eraseP C k
  unfold Bucket.remove at h
  cases htf : takeFirst (fun r => decide (C.key r = k)) b.items with
  | none =>
    rw [htf] at h
    simp only [Bool.false_eq_true, if_false] at h
    injection h with h1 h2
    subst h1; subst h2
    have hnone : (records t).find? (fun r => decide (C.key r = k)) = none := by
      rw [hfind, List.find?_eq_none.2 (by simpa using takeFirst_none.1 htf)]
    have hall := List.find?_eq_none.1 hnone
    refine ⟨hp, ?_, ?_⟩
    · rw [eq_comm, List.any_eq_false]; exact hall
    · intro j
      rw [List.eraseP_of_forall_not hall]
  | some r =>
    rw [htf] at h
    dsimp only at h
    injection h with h1 h2
    subst h1; subst h2
    refine ⟨placed_set hp ?_, ?_, ?_⟩
    · intro x hx
      have := (takeFirst_perm htf).mem_iff.1 (List.mem_cons_of_mem _ hx)
      exact hp _ _ hb x this
    · have : (records t).find? (fun r => decide (C.key r = k)) = some r.1 := by rw [hfind, (takeFirst_find htf).1]
      rw [eq_comm, List.any_eq_true]
      have h2 := List.find?_some (p := fun r => decide (C.key r = k)) this
      exact ⟨r.1, List.mem_of_find?_eq_some this, h2⟩
    · intro j
      rw [herase]
      by_cases hj : j = k
      · rw [if_pos hj, hj, hk.2, hk.1]
        unfold ofKey
        rw [takeFirst_filter_same htf]; rfl
      · rw [if_neg hj]
        apply ofKey_set_other hb
        exact (takeFirst_filter_other htf (by intro x hx; simp only [decide_eq_true_eq] at hx; simp [hx, Ne.symm hj])).symm

end Stable

end ELC.Table
