import Verif.Symname.Spec
/-! Lemmas for Props. -/
namespace ELC.Symname

theorem set_same {α : Type} (f : Nat → α) (i : Nat) (a : α) : set f i a i = a := by simp [set]
theorem set_other {α : Type} (f : Nat → α) {i j : Nat} (a : α) (h : j ≠ i) : set f i a j = f j := by simp [set, h]
theorem put_same (s : Spec.State) (v : Nat) (t : Option (List Nat)) : Spec.put s v t v = t := by simp [Spec.put]
theorem put_other (s : Spec.State) {v u : Nat} (t : Option (List Nat)) (h : u ≠ v) : Spec.put s v t u = s u := by
  simp [Spec.put, h]

/-- The objects hold what the specification says, each block belongs to one object. -/
structure Inv (gnu : Bool) (m : Mem) (s : Spec.State) : Prop where
  some_ : ∀ v t, s v = some t → ∃ n, m.vars v = some n ∧ text m n = some t ∧ (gnu = true → ∀ x, n.ptr ≠ .static x)
  none_ : ∀ v, s v = none → m.vars v = none
  owned : ∀ i, m.heap i ≠ none → i < m.next ∧ ∃ v n, m.vars v = some n ∧ n.ptr = .block i
  alone : ∀ v u n k i, m.vars v = some n → m.vars u = some k → n.ptr = .block i → k.ptr = .block i → v = u

theorem inv_empty (gnu : Bool) : Inv gnu Mem.empty (fun _ => none) :=
  ⟨by intro v t h; simp at h, fun _ _ => rfl, by intro i h; simp [Mem.empty] at h,
    by intro v u n k i h; simp [Mem.empty] at h⟩

theorem text_congr {m m' : Mem} {n : Name} {t : List Nat} (h : text m n = some t)
    (hh : ∀ i, n.ptr = .block i → m'.heap i = m.heap i) : text m' n = some t := by
  rw [← h]
  unfold text
  have : bytes m' n.ptr = bytes m n.ptr := by
    cases hp : n.ptr with
    | null => rfl
    | static x => rfl
    | block i => exact hh i hp
  rw [this]

theorem text_block {m : Mem} {n : Name} {i : Nat} {t : List Nat} (hp : n.ptr = .block i) (h : text m n = some t) :
    m.heap i ≠ none := by
  unfold text at h
  rw [hp] at h
  intro hc
  simp [bytes, hc] at h

/-- A new object with a block of its own, or with none. -/
theorem inv_new {gnu : Bool} {m : Mem} {s : Spec.State} (hi : Inv gnu m s) {v : Nat} (hv : s v = none) {n : Name}
    {t : List Nat} {content : List Nat} (hn : n = ⟨.block m.next, n.size⟩) (hs : n.size ≤ content.length)
    (ht : content.take n.size = t) :
    Inv gnu ⟨set m.heap m.next (some content), m.next + 1, set m.vars v (some n)⟩ (Spec.put s v (some t)) := by
  have hmv := hi.none_ v hv
  have hnp : n.ptr = .block m.next := by rw [hn]
  refine ⟨?_, ?_, ?_, ?_⟩
  · intro u t' hu
    by_cases huv : u = v
    · subst huv
      rw [put_same] at hu
      injection hu with hu
      subst hu
      refine ⟨n, set_same _ _ _, ?_, fun _ x => by rw [hnp]; simp⟩
      unfold text
      rw [hnp]
      simp only [bytes, set_same, Option.bind_some]
      rw [if_pos hs, ht]
    · rw [put_other _ _ huv] at hu
      obtain ⟨k, h1, h2, h3⟩ := hi.some_ u t' hu
      refine ⟨k, by rw [← h1]; exact set_other _ _ huv, text_congr h2 ?_, h3⟩
      intro i hki
      have := (hi.owned i (text_block hki h2)).1
      exact set_other _ _ (by omega)
  · intro u hu
    by_cases huv : u = v
    · subst huv; rw [put_same] at hu; simp at hu
    · rw [put_other _ _ huv] at hu
      rw [← hi.none_ u hu]
      exact set_other _ _ huv
  · intro i hh
    by_cases hin : i = m.next
    · exact ⟨by dsimp only; omega, v, n, set_same _ _ _, by rw [hin]; exact hnp⟩
    · have : m.heap i ≠ none := by
        dsimp only at hh
        rwa [set_other _ _ hin] at hh
      obtain ⟨h1, u, k, h2, h3⟩ := hi.owned i this
      refine ⟨by dsimp only; omega, u, k, ?_, h3⟩
      rw [← h2]
      refine set_other _ _ ?_
      rintro rfl
      rw [hmv] at h2; simp at h2
  · intro a b k l i ha hb hk hl
    dsimp only at ha hb
    by_cases hav : a = v
    · by_cases hbv : b = v
      · rw [hav, hbv]
      · exfalso
        rw [hav, set_same] at ha
        injection ha with ha
        rw [← ha, hnp] at hk
        rw [set_other _ _ hbv] at hb
        injection hk with hk
        obtain ⟨t', ht'⟩ : ∃ t', s b = some t' := by
          cases hsb : s b with
          | none => rw [hi.none_ b hsb] at hb; simp at hb
          | some t' => exact ⟨t', rfl⟩
        obtain ⟨l', h1, h2, _⟩ := hi.some_ b t' ht'
        rw [hb] at h1
        injection h1 with h1
        subst h1
        have := (hi.owned i (text_block hl h2)).1
        omega
    · rw [set_other _ _ hav] at ha
      by_cases hbv : b = v
      · exfalso
        rw [hbv, set_same] at hb
        injection hb with hb
        rw [← hb, hnp] at hl
        injection hl with hl
        obtain ⟨t', ht'⟩ : ∃ t', s a = some t' := by
          cases hsb : s a with
          | none => rw [hi.none_ a hsb] at ha; simp at ha
          | some t' => exact ⟨t', rfl⟩
        obtain ⟨l', h1, h2, _⟩ := hi.some_ a t' ht'
        rw [ha] at h1
        injection h1 with h1
        subst h1
        have := (hi.owned i (text_block hk h2)).1
        omega
      · rw [set_other _ _ hbv] at hb
        exact hi.alone a b k l i ha hb hk hl

/-- A new object without a block. -/
theorem inv_plain {gnu : Bool} {m : Mem} {s : Spec.State} (hi : Inv gnu m s) {v : Nat} (hv : s v = none) {n : Name}
    {t : List Nat} (hb : ∀ i, n.ptr ≠ .block i) (ht : text m n = some t) (hg : gnu = true → ∀ x, n.ptr ≠ .static x) :
    Inv gnu ⟨m.heap, m.next, set m.vars v (some n)⟩ (Spec.put s v (some t)) := by
  have hmv := hi.none_ v hv
  refine ⟨?_, ?_, ?_, ?_⟩
  · intro u t' hu
    by_cases huv : u = v
    · subst huv
      rw [put_same] at hu
      injection hu with hu
      subst hu
      exact ⟨n, set_same _ _ _, text_congr ht fun i h => rfl, hg⟩
    · rw [put_other _ _ huv] at hu
      obtain ⟨k, h1, h2, h3⟩ := hi.some_ u t' hu
      exact ⟨k, by rw [← h1]; exact set_other _ _ huv, text_congr h2 fun i h => rfl, h3⟩
  · intro u hu
    by_cases huv : u = v
    · subst huv; rw [put_same] at hu; simp at hu
    · rw [put_other _ _ huv] at hu
      rw [← hi.none_ u hu]
      exact set_other _ _ huv
  · intro i hh
    obtain ⟨h1, u, k, h2, h3⟩ := hi.owned i hh
    refine ⟨h1, u, k, ?_, h3⟩
    rw [← h2]
    refine set_other _ _ ?_
    rintro rfl
    rw [hmv] at h2; simp at h2
  · intro a b k l i ha hb' hk hl
    dsimp only at ha hb'
    by_cases hav : a = v
    · exfalso
      rw [hav, set_same] at ha
      injection ha with ha
      rw [← ha] at hk
      exact hb i hk
    · rw [set_other _ _ hav] at ha
      by_cases hbv : b = v
      · exfalso
        rw [hbv, set_same] at hb'
        injection hb' with hb'
        rw [← hb'] at hl
        exact hb i hl
      · rw [set_other _ _ hbv] at hb'
        exact hi.alone a b k l i ha hb' hk hl

theorem inv_move {gnu : Bool} {m : Mem} {s : Spec.State} (hi : Inv gnu m s) {v u : Nat} (hv : s v = none) {t : List Nat}
    (hu : s u = some t) {n : Name} (hn : m.vars u = some n) (ht : text m n = some t)
    (hg : gnu = true → ∀ x, n.ptr ≠ .static x) :
    Inv gnu ⟨m.heap, m.next, set (set m.vars v (some n)) u (some ⟨.null, 0⟩)⟩ (Spec.put (Spec.put s v (some t)) u (some [])) := by
  have hmv := hi.none_ v hv
  have huv : u ≠ v := by rintro rfl; rw [hv] at hu; simp at hu
  refine ⟨?_, ?_, ?_, ?_⟩
  · intro a t' ha
    by_cases hau : a = u
    · subst hau
      rw [put_same] at ha
      injection ha with ha
      subst ha
      exact ⟨⟨.null, 0⟩, set_same _ _ _, by simp [text, bytes], fun _ x => by simp⟩
    · rw [put_other _ _ hau] at ha
      by_cases hav : a = v
      · subst hav
        rw [put_same] at ha
        injection ha with ha
        subst ha
        exact ⟨n, by dsimp only; rw [set_other _ _ hau, set_same], text_congr ht fun _ _ => rfl, hg⟩
      · rw [put_other _ _ hav] at ha
        obtain ⟨k, h1, h2, h3⟩ := hi.some_ a t' ha
        exact ⟨k, by dsimp only; rw [set_other _ _ hau, set_other _ _ hav, h1], text_congr h2 fun _ _ => rfl, h3⟩
  · intro a ha
    by_cases hau : a = u
    · subst hau; rw [put_same] at ha; simp at ha
    · rw [put_other _ _ hau] at ha
      by_cases hav : a = v
      · subst hav; rw [put_same] at ha; simp at ha
      · rw [put_other _ _ hav] at ha
        dsimp only
        rw [set_other _ _ hau, set_other _ _ hav, hi.none_ a ha]
  · intro i hh
    obtain ⟨h1, a, k, h2, h3⟩ := hi.owned i hh
    refine ⟨h1, ?_⟩
    by_cases hau : a = u
    · subst hau
      rw [hn] at h2
      injection h2 with h2
      subst h2
      exact ⟨v, n, by dsimp only; rw [set_other _ _ (Ne.symm huv), set_same], h3⟩
    · have hav : a ≠ v := by rintro rfl; rw [hmv] at h2; simp at h2
      exact ⟨a, k, by dsimp only; rw [set_other _ _ hau, set_other _ _ hav, h2], h3⟩
  · -- the owner of a block before the step
    have key : ∀ a k i, set (set m.vars v (some n)) u (some ⟨.null, 0⟩) a = some k → k.ptr = .block i →
        a ≠ u ∧ ∃ b, m.vars b = some k ∧ ((a = v ∧ b = u) ∨ (a ≠ v ∧ b = a)) := by
      intro a k i ha hk
      by_cases hau : a = u
      · subst hau
        rw [set_same] at ha
        injection ha with ha
        rw [← ha] at hk
        simp at hk
      · rw [set_other _ _ hau] at ha
        refine ⟨hau, ?_⟩
        by_cases hav : a = v
        · subst hav
          rw [set_same] at ha
          injection ha with ha
          subst ha
          exact ⟨u, hn, Or.inl ⟨rfl, rfl⟩⟩
        · rw [set_other _ _ hav] at ha
          exact ⟨a, ha, Or.inr ⟨hav, rfl⟩⟩
    intro a b k l i ha hb hk hl
    obtain ⟨ha1, a', ha2, ha3⟩ := key a k i ha hk
    obtain ⟨hb1, b', hb2, hb3⟩ := key b l i hb hl
    have := hi.alone a' b' k l i ha2 hb2 hk hl
    rcases ha3 with ⟨h1, h2⟩ | ⟨h1, h2⟩ <;> rcases hb3 with ⟨h3, h4⟩ | ⟨h3, h4⟩
    · rw [h1, h3]
    · omega
    · omega
    · omega

/-- An object disappears with its block, if it has one. -/
theorem inv_drop {gnu : Bool} {m : Mem} {s : Spec.State} (hi : Inv gnu m s) {v : Nat} {n : Name} (hn : m.vars v = some n)
    {heap : Nat → Option (List Nat)} (h1 : ∀ i, n.ptr ≠ .block i → heap i = m.heap i)
    (h2 : ∀ i, n.ptr = .block i → heap i = none) :
    Inv gnu ⟨heap, m.next, set m.vars v none⟩ (Spec.put s v none) := by
  refine ⟨?_, ?_, ?_, ?_⟩
  · intro a t ha
    by_cases hav : a = v
    · subst hav; rw [put_same] at ha; simp at ha
    · rw [put_other _ _ hav] at ha
      obtain ⟨k, g1, g2, g3⟩ := hi.some_ a t ha
      refine ⟨k, by dsimp only; rw [set_other _ _ hav, g1], text_congr g2 fun i hk => h1 i fun hc => ?_, g3⟩
      exact hav (hi.alone a v k n i g1 hn hk hc)
  · intro a ha
    by_cases hav : a = v
    · subst hav; exact set_same _ _ _
    · rw [put_other _ _ hav] at ha
      dsimp only
      rw [set_other _ _ hav, hi.none_ a ha]
  · intro i hh
    by_cases hc : n.ptr = .block i
    · exact absurd (h2 i hc) hh
    · have : m.heap i ≠ none := by
        dsimp only at hh
        rwa [h1 i hc] at hh
      obtain ⟨g1, a, k, g2, g3⟩ := hi.owned i this
      refine ⟨g1, a, k, ?_, g3⟩
      rw [← g2]
      refine set_other _ _ ?_
      rintro rfl
      rw [hn] at g2
      injection g2 with g2
      subst g2
      exact hc g3
  · intro a b k l i ha hb hk hl
    dsimp only at ha hb
    by_cases hav : a = v
    · subst hav; rw [set_same] at ha; simp at ha
    · by_cases hbv : b = v
      · subst hbv; rw [set_same] at hb; simp at hb
      · rw [set_other _ _ hav] at ha
        rw [set_other _ _ hbv] at hb
        exact hi.alone a b k l i ha hb hk hl

theorem text_size {m : Mem} {n : Name} {t : List Nat} (h : text m n = some t) : n.size = t.length := by
  unfold text at h
  cases hb : bytes m n.ptr with
  | none => rw [hb] at h; simp at h
  | some l =>
    rw [hb] at h
    simp only [Option.bind_some] at h
    split at h
    · injection h with h; rw [← h, List.length_take]; omega
    · simp at h

/-- If the compiler is not gcc or clang, no object has a block. -/
def NoBlocks (m : Mem) : Prop := ∀ v n, m.vars v = some n → ∀ i, n.ptr ≠ .block i

theorem step_inv {gnu : Bool} {m : Mem} {s s' : Spec.State} (hi : Inv gnu m s) (hb : gnu = false → NoBlocks m) {o : Op}
    (h : Spec.step gnu s o = some s') : ∃ m', step gnu m o = some m' ∧ Inv gnu m' s' ∧ (gnu = false → NoBlocks m') := by
  cases o with
  | make v orig r =>
    simp only [Spec.step] at h
    by_cases hv : s v = none
    · rw [if_pos hv] at h
      cases gnu with
      | true =>
        cases r with
        | fail => simp [Spec.made] at h
        | ok t rest =>
          simp only [Spec.made, if_true, Option.map_some, Option.some.injEq] at h
          subst h
          refine ⟨_, rfl, ?_, by simp⟩
          exact inv_new hi hv rfl (Nat.le_refl _) (List.take_length)
      | false =>
        have hm : Spec.made false orig r = orig := by cases r <;> rfl
        rw [hm] at h
        cases orig with
        | none => simp at h
        | some x =>
          simp only [Option.map_some, Option.some.injEq] at h
          subst h
          refine ⟨_, rfl, ?_, ?_⟩
          · exact inv_plain hi hv (n := ⟨.static x, x.length⟩) (by simp) (by simp [text, bytes]) (by simp)
          · intro _ u k hu i
            dsimp only at hu
            by_cases huv : u = v
            · subst huv; rw [set_same] at hu; injection hu with hu; subst hu; simp
            · rw [set_other _ _ huv] at hu; exact hb rfl u k hu i
    · rw [if_neg hv] at h; simp at h
  | copy v u alloc =>
    simp only [Spec.step] at h
    by_cases hv : s v = none
    · rw [if_pos hv] at h
      cases hu : s u with
      | none => rw [hu] at h; simp at h
      | some t =>
        rw [hu] at h
        simp only [Option.map_some, Option.some.injEq] at h
        subst h
        obtain ⟨n, h1, h2, h3⟩ := hi.some_ u t hu
        cases gnu with
        | true =>
          cases alloc with
          | true =>
            simp only [step, h1, Option.bind_some, copyDemangle, if_true, h2, Option.map_some]
            refine ⟨_, rfl, ?_, by simp⟩
            have := text_size h2
            exact inv_new hi hv rfl (by simp [this]) (by simp [this])
          | false =>
            simp only [step, h1, Option.bind_some, copyDemangle, if_true]
            refine ⟨_, rfl, ?_, by simp⟩
            exact inv_plain hi hv (n := ⟨.null, 0⟩) (by simp) (by simp [text, bytes]) (by simp)
        | false =>
          simp only [step, h1, Option.bind_some, copyDemangle]
          refine ⟨_, rfl, ?_, ?_⟩
          · simp only [Bool.not_false, Bool.or_true, if_true]
            exact inv_plain hi hv (hb rfl u n h1) h2 (by simp)
          · intro _ a k ha i
            dsimp only at ha
            by_cases hav : a = v
            · subst hav
              rw [set_same] at ha
              injection ha with ha; subst ha; exact hb rfl u n h1 i
            · rw [set_other _ _ hav] at ha; exact hb rfl a k ha i
    · rw [if_neg hv] at h; simp at h
  | move v u =>
    simp only [Spec.step] at h
    by_cases hv : s v = none
    · rw [if_pos hv] at h
      cases hu : s u with
      | none => rw [hu] at h; simp at h
      | some t =>
        rw [hu] at h
        simp only [Option.map_some, Option.some.injEq] at h
        subst h
        obtain ⟨n, h1, h2, h3⟩ := hi.some_ u t hu
        simp only [step, h1, Option.map_some]
        refine ⟨_, rfl, inv_move hi hv hu h1 h2 h3, ?_⟩
        intro hg a k ha i
        dsimp only at ha
        by_cases hau : a = u
        · subst hau; rw [set_same] at ha; injection ha with ha; subst ha; simp
        · rw [set_other _ _ hau] at ha
          by_cases hav : a = v
          · subst hav; rw [set_same] at ha; injection ha with ha; subst ha; exact hb hg u n h1 i
          · rw [set_other _ _ hav] at ha; exact hb hg a k ha i
    · rw [if_neg hv] at h; simp at h
  | drop v =>
    simp only [Spec.step] at h
    cases hv : s v with
    | none => rw [hv] at h; simp at h
    | some t =>
      rw [hv] at h
      simp only [Option.map_some, Option.some.injEq] at h
      subst h
      obtain ⟨n, h1, h2, h3⟩ := hi.some_ v t hv
      have hnb : ∀ heap next, gnu = false → NoBlocks ⟨heap, next, set m.vars v none⟩ := by
        intro heap next hg a k ha i
        dsimp only at ha
        by_cases hav : a = v
        · subst hav; rw [set_same] at ha; simp at ha
        · rw [set_other _ _ hav] at ha; exact hb hg a k ha i
      cases gnu with
      | true =>
        cases hp : n.ptr with
        | null =>
          simp only [step, h1, Option.bind_some, if_true, hp, free, Option.map_some]
          exact ⟨_, rfl, inv_drop hi h1 (fun _ _ => rfl) (by simp [hp]), hnb _ _⟩
        | static x => exact absurd hp (h3 rfl x)
        | block i =>
          have hh := text_block hp h2
          cases hc : m.heap i with
          | none => exact absurd hc hh
          | some c =>
            simp only [step, h1, Option.bind_some, if_true, hp, free, hc, Option.map_some]
            refine ⟨_, rfl, inv_drop hi h1 ?_ ?_, hnb _ _⟩
            · intro j hj
              refine set_other _ _ ?_
              rintro rfl
              exact hj hp
            · intro j hj
              rw [hp] at hj
              injection hj with hj
              subst hj
              exact set_same _ _ _
      | false =>
        simp only [step, h1, Option.bind_some]
        exact ⟨_, rfl, inv_drop hi h1 (fun _ _ => rfl) (fun i hc => absurd hc (hb rfl v n h1 i)), fun _ => hnb _ _ rfl⟩

theorem run_inv {gnu : Bool} (os : List Op) : ∀ {m : Mem} {s s' : Spec.State}, Inv gnu m s → (gnu = false → NoBlocks m) →
    Spec.run gnu s os = some s' → ∃ m', run gnu m os = some m' ∧ Inv gnu m' s' := by
  induction os with
  | nil =>
    intro m s s' hi _ h
    simp only [Spec.run, Option.some.injEq] at h
    subst h
    exact ⟨m, rfl, hi⟩
  | cons o os ih =>
    intro m s s' hi hb h
    simp only [Spec.run] at h
    cases hs : Spec.step gnu s o with
    | none => rw [hs] at h; simp at h
    | some s1 =>
      rw [hs, Option.bind_some] at h
      obtain ⟨m1, e1, hi1, hb1⟩ := step_inv hi hb hs
      obtain ⟨m2, e2, hi2⟩ := ih hi1 hb1 h
      exact ⟨m2, by simp only [run, e1, Option.bind_some, e2], hi2⟩

end ELC.Symname
