import Verif.Node.Lemmas
/-!
Maps of common nodes.
-/
namespace ELC.Node
open LogicalBool (ofBool neither either unknown)

variable {E : Env} {h : Heap}

theorem Same.void_iff {v : Ref} : Same E h v .void ↔ v = .void := by
  constructor
  · rintro (e | ⟨i, j, T, a, b, e1, e2, _⟩)
    · exact e
    · cases e2
  · exact fun e => .inl e

/-- The records whose value is not void. -/
def kept (m : List (Ref × Ref)) : List (Ref × Ref) := m.filter fun r => decide (r.2 ≠ .void)

theorem shrink_eq (L : Lawful E) (O : OneType E h) (m : List (Ref × Ref)) : shrink E h m = some (kept m) := by
  classical
  induction m with
  | nil => rfl
  | cons r m ih =>
    simp only [shrink, eqWith_eq L (O _ _), ih, Option.bind_some, Option.map_some, ofBool_toBool, kept, List.filter_cons,
      Same.void_iff, decide_eq_true_eq]
    by_cases e : r.2 = .void <;> simp [e]

theorem gives_total (k : Ref) : ∀ m : List (Ref × Ref), ∃ v, Gives E h k m v
  | [] => ⟨_, .nil⟩
  | (k', v) :: m => by
    by_cases e : Same E h k' k
    · exact ⟨v, .here e⟩
    · obtain ⟨w, hw⟩ := gives_total k m
      exact ⟨w, .there e hw⟩

theorem Gives.unique {k : Ref} {m : List (Ref × Ref)} {v w : Ref} (a : Gives E h k m v) (b : Gives E h k m w) : v = w := by
  induction a with
  | nil => cases b; rfl
  | here e => cases b with
    | here => rfl
    | there e' => exact absurd e e'
  | there e _ ih => cases b with
    | here e' => exact absurd e' e
    | there _ hb => exact ih hb

theorem lookup_gives (L : Lawful E) (O : OneType E h) (k : Ref) : ∀ m : List (Ref × Ref),
    ∃ v, lookup E h k m = some v ∧ Gives E h k m v
  | [] => ⟨_, rfl, .nil⟩
  | (k', v) :: m => by
    classical
    obtain ⟨w, hw, hg⟩ := lookup_gives L O k m
    by_cases e : Same E h k' k
    · exact ⟨v, by simp [lookup, eqWith_eq L (O _ _), e], .here e⟩
    · exact ⟨w, by simp [lookup, eqWith_eq L (O _ _), e, hw], .there e hg⟩

/-- A map gives the value of a record, when its key is there once. -/
theorem Gives.of_mem (L : Lawful E) {m : List (Ref × Ref)} (hd : Distinct E h m) {k v k' : Ref} (hm : (k', v) ∈ m)
    (hk : Same E h k' k) : Gives E h k m v := by
  induction m with
  | nil => cases hm
  | cons r m ih =>
    obtain ⟨r1, r2⟩ := r
    have hd' := List.pairwise_cons.1 hd
    rcases List.mem_cons.1 hm with e | hm'
    · cases e; exact .here hk
    · exact .there (fun e => hd'.1 _ hm' (e.trans L (hk.symm L))) (ih hd'.2 hm')

theorem Gives.mem {k v : Ref} {m : List (Ref × Ref)} (g : Gives E h k m v) (hv : v ≠ .void) :
    ∃ k', (k', v) ∈ m ∧ Same E h k' k := by
  induction g with
  | nil => exact absurd rfl hv
  | here e => exact ⟨_, by simp, e⟩
  | there _ _ ih =>
    obtain ⟨k', h1, h2⟩ := ih hv
    exact ⟨k', by simp [h1], h2⟩

theorem mem_kept {m : List (Ref × Ref)} {r : Ref × Ref} : r ∈ kept m ↔ r ∈ m ∧ r.2 ≠ .void := by simp [kept]

theorem Distinct.kept {m : List (Ref × Ref)} (hd : Distinct E h m) : Distinct E h (kept m) :=
  List.Pairwise.filter _ hd

theorem gives_kept (L : Lawful E) {m : List (Ref × Ref)} (hd : Distinct E h m) (k v : Ref) :
    Gives E h k (kept m) v ↔ Gives E h k m v := by
  have one : ∀ v, Gives E h k m v → Gives E h k (kept m) v := by
    intro v g
    by_cases hv : v = .void
    · subst hv
      obtain ⟨w, hw⟩ := gives_total (E := E) (h := h) k (kept m)
      by_cases hw' : w = .void
      · subst hw'; exact hw
      · obtain ⟨k', h1, h2⟩ := hw.mem hw'
        have := Gives.of_mem L hd (mem_kept.1 h1).1 h2
        exact absurd (this.unique g) hw'
    · obtain ⟨k', h1, h2⟩ := g.mem hv
      exact Gives.of_mem L hd.kept (mem_kept.2 ⟨h1, hv⟩) h2
  constructor
  · intro g
    obtain ⟨w, hw⟩ := gives_total (E := E) (h := h) k m
    cases (one w hw).unique g
    exact hw
  · exact one v

/-- The loop of the comparison. -/
theorem agree_eq (L : Lawful E) (O : OneType E h) (n : List (Ref × Ref)) : ∀ m : List (Ref × Ref),
    ∃ b, agree E h n m = some b ∧ (b = true ↔ ∀ r ∈ m, ∀ w, Gives E h r.1 n w → Same E h w r.2)
  | [] => ⟨true, rfl, by simp⟩
  | r :: m => by
    classical
    obtain ⟨b, h1, h2⟩ := agree_eq L O n m
    obtain ⟨v, h3, h4⟩ := lookup_gives L O r.1 n
    by_cases e : Same E h v r.2
    · refine ⟨b, by simp [agree, h3, eqWith_eq L (O _ _), e, h1], ?_⟩
      rw [h2]
      constructor
      · intro H s hs w hw
        rcases List.mem_cons.1 hs with rfl | hs
        · cases hw.unique h4; exact e
        · exact H s hs w hw
      · intro H s hs w hw
        exact H s (by simp [hs]) w hw
    · refine ⟨false, by simp [agree, h3, eqWith_eq L (O _ _), e], ?_⟩
      constructor
      · intro c; cases c
      · intro H; exact absurd (H r (by simp) v h4) e

/-- Every key of `m` has a record in `n`, and there are no more records in `n`: every key of `n` has a record in `m`. -/
theorem cover (L : Lawful E) : ∀ (m n : List (Ref × Ref)), Distinct E h m → Distinct E h n →
    (∀ r ∈ m, ∃ s ∈ n, Same E h s.1 r.1) →
    m.length ≤ n.length ∧ (m.length = n.length → ∀ s ∈ n, ∃ r ∈ m, Same E h s.1 r.1)
  | [], n, _, _, _ => ⟨by simp, fun e s hs => by
      have : n = [] := List.length_eq_zero_iff.1 (by simpa using e.symm)
      subst this; cases hs⟩
  | r :: m, n, hm, hn, hc => by
    obtain ⟨s, hs, hsr⟩ := hc r (by simp)
    have hm' := List.pairwise_cons.1 hm
    obtain ⟨n1, n2, rfl⟩ := List.append_of_mem hs
    have hn' : Distinct E h (n1 ++ n2) := by
      refine List.Pairwise.sublist ?_ hn
      exact List.Sublist.append (List.Sublist.refl _) (List.sublist_cons_self _ _)
    have hc' : ∀ r' ∈ m, ∃ s' ∈ n1 ++ n2, Same E h s'.1 r'.1 := by
      intro r' hr'
      obtain ⟨s', h1, h2⟩ := hc r' (by simp [hr'])
      rcases List.mem_append.1 h1 with h3 | h3
      · exact ⟨s', by simp [h3], h2⟩
      · rcases List.mem_cons.1 h3 with rfl | h3
        · exact absurd ((hsr.symm L).trans L h2) (hm'.1 r' hr')
        · exact ⟨s', by simp [h3], h2⟩
    obtain ⟨i1, i2⟩ := cover L m (n1 ++ n2) hm'.2 hn' hc'
    simp only [List.length_append, List.length_cons] at i1 i2 ⊢
    refine ⟨by omega, fun e s' hs' => ?_⟩
    have hall := i2 (by omega)
    rcases List.mem_append.1 hs' with h3 | h3
    · obtain ⟨r', h4, h5⟩ := hall s' (by simp [h3])
      exact ⟨r', by simp [h4], h5⟩
    · rcases List.mem_cons.1 h3 with rfl | h3
      · exact ⟨r, by simp, hsr⟩
      · obtain ⟨r', h4, h5⟩ := hall s' (by simp [h3])
        exact ⟨r', by simp [h4], h5⟩

/-- Maps compare equal exactly when they give the same for every key. -/
theorem mapEq_iff (L : Lawful E) (O : OneType E h) {m n : List (Ref × Ref)} (hm : Distinct E h m)
    (hn : Distinct E h n) : ∃ b, mapEq E h m n = some b ∧ (b = true ↔ SameMap E h m n) := by
  have hsm : SameMap E h (kept m) (kept n) ↔ SameMap E h m n := by
    constructor
    · intro H k v w a b; exact H k v w ((gives_kept L hm k v).2 a) ((gives_kept L hn k w).2 b)
    · intro H k v w a b; exact H k v w ((gives_kept L hm k v).1 a) ((gives_kept L hn k w).1 b)
  rw [← hsm]
  simp only [mapEq, shrink_eq L O, Option.bind_some]
  have vm : ∀ r ∈ kept m, r.2 ≠ .void := fun r hr => (mem_kept.1 hr).2
  have vn : ∀ r ∈ kept n, r.2 ≠ .void := fun r hr => (mem_kept.1 hr).2
  have dm := hm.kept
  have dn := hn.kept
  generalize kept m = m at *
  generalize kept n = n at *
  -- a record of one has a record with the same key in the other
  have half : ∀ {m n : List (Ref × Ref)}, Distinct E h m → (∀ r ∈ m, r.2 ≠ .void) →
      (∀ r ∈ m, ∀ w, Gives E h r.1 n w → Same E h w r.2) → ∀ r ∈ m, ∃ s ∈ n, Same E h s.1 r.1 := by
    intro m n dm vm H r hr
    obtain ⟨w, hw⟩ := gives_total (E := E) (h := h) r.1 n
    have hs := H r hr w hw
    have : w ≠ .void := by
      rintro rfl
      exact vm r hr (Same.void_iff.1 (hs.symm L))
    obtain ⟨k', h1, h2⟩ := hw.mem this
    exact ⟨_, h1, h2⟩
  have same_half : SameMap E h m n → ∀ r ∈ m, ∀ w, Gives E h r.1 n w → Same E h w r.2 := by
    intro H r hr w hw
    exact (H r.1 r.2 w (Gives.of_mem L dm hr (.refl _ _ _)) hw).symm L
  have same_half' : SameMap E h m n → ∀ r ∈ n, ∀ w, Gives E h r.1 m w → Same E h w r.2 := by
    intro H r hr w hw
    exact H r.1 w r.2 hw (Gives.of_mem L dn hr (.refl _ _ _))
  split
  · rename_i hl
    obtain ⟨b, h1, h2⟩ := agree_eq L O n m
    refine ⟨b, h1, h2.trans ⟨fun H => ?_, same_half⟩⟩
    have cov := (cover L m n dm dn (half dm vm H)).2 hl
    intro k v w hv hw
    by_cases v0 : v = .void
    · subst v0
      by_cases w0 : w = .void
      · subst w0; exact .refl _ _ _
      · obtain ⟨k', g1, g2⟩ := hw.mem w0
        obtain ⟨r, g3, g4⟩ := cov _ g1
        have g5 := Gives.of_mem L dm g3 (((g4.symm L).trans L g2) : Same E h r.1 k)
        exact absurd (g5.unique hv) (vm r g3)
    · obtain ⟨k', g1, g2⟩ := hv.mem v0
      obtain ⟨w', hw'⟩ := gives_total (E := E) (h := h) k' n
      have g3 := H _ g1 w' hw'
      have w'0 : w' ≠ .void := by
        rintro rfl
        exact v0 (Same.void_iff.1 (g3.symm L))
      obtain ⟨k'', g4, g5⟩ := hw'.mem w'0
      cases (Gives.of_mem L dn g4 (g5.trans L g2)).unique hw
      exact g3.symm L
  · rename_i hl
    refine ⟨false, rfl, ?_⟩
    constructor
    · intro c; cases c
    · intro H
      have c1 := (cover L m n dm dn (half dm vm (same_half H))).1
      have c2 := (cover L n m dn dm (half dn vn (same_half' H))).1
      omega

end ELC.Node
