import Verif.Table.Props
/-! Maps: C41. -/
namespace ELC.Table

variable {K V : Type} [DecidableEq K] [DecidableEq V]

/-- The table of a map holds the function `f`: a key has no record, and then the default value, or one with its value. -/
def HoldsMap (C : Config (Entry K V) K) (hash : K → Nat) (dflt : V) (m : Table (Entry K V)) (f : K → V) : Prop :=
  0 < m.length ∧ Sized m ∧ Placed C hash m ∧
    ∀ k, (ofKey C k (records m) = [] ∧ f k = dflt) ∨ ofKey C k (records m) = [(k, f k)]

theorem HoldsMap.holds {C : Config (Entry K V) K} {hash : K → Nat} {dflt : V} {m : Table (Entry K V)} {f : K → V}
    (h : HoldsMap C hash dflt m f) : Holds C hash m (records m) := ⟨h.1, h.2.1, h.2.2.1, fun _ => rfl⟩

theorem HoldsMap.change {C : Config (Entry K V) K} {hash : K → Nat} {dflt : V} {m m' : Table (Entry K V)} {f : K → V}
    (h : HoldsMap C hash dflt m f) (h' : Holds C hash m' (records m)) : HoldsMap C hash dflt m' f :=
  ⟨h'.1, h'.2.1, h'.2.2.1, fun k => by rw [h'.2.2.2]; exact h.2.2.2 k⟩

theorem holdsMap_new (C : Config (Entry K V) K) (hash : K → Nat) (dflt : V) : HoldsMap C hash dflt new (fun _ => dflt) :=
  ⟨by simp [new], sized_replicate 5, placed_replicate C hash 5, fun k => Or.inl ⟨by rw [records_new]; rfl, rfl⟩⟩

theorem find_ofKey (C : Config (Entry K V) K) (k : K) (l : List (Entry K V)) :
    l.find? (fun r => decide (C.key r = k)) = (ofKey C k l).head? := head_filter l

theorem mapRead_holds {C : Config (Entry K V) K} {hash : K → Nat} {dflt : V} {m : Table (Entry K V)} {f : K → V}
    (h : HoldsMap C hash dflt m f) (k : K) :
    ∃ m', mapRead C hash dflt m k = some (f k, m') ∧ HoldsMap C hash dflt m' f := by
  obtain ⟨m', e1, e2, e3, e4⟩ := holds_find h.holds k
  refine ⟨m', ?_, h.change e2⟩
  unfold mapRead
  rw [e1, Option.map_some]
  rw [find_ofKey]
  rcases h.2.2.2 k with ⟨g1, g2⟩ | g
  · rw [g1]; simp [g2]
  · rw [g]; rfl

theorem mapAt_holds {C : Config (Entry K V) K} (hkey : ∀ e, C.key e = e.1) (hg : ∀ n, 0 < C.grow n) {hash : K → Nat} {dflt : V}
    {m : Table (Entry K V)} {f : K → V} (h : HoldsMap C hash dflt m f) (k : K) :
    ∃ m', mapAt C hash dflt m k = some (f k, m') ∧ HoldsMap C hash dflt m' f ∧
      ∃ b, m'[hash k % m'.length]? = some b ∧ b.items.head? = some (k, f k) := by
  obtain ⟨m1, e1, e2, e3, e4⟩ := holds_find h.holds k
  unfold mapAt
  rw [e1, Option.bind_some]
  rw [find_ofKey] at e4 ⊢
  rcases h.2.2.2 k with ⟨g1, g2⟩ | g
  · rw [g1]
    dsimp only [List.head?_nil]
    have hm1 := h.change e2
    have hk1 : ofKey C k (records m1) = [] := by rw [e2.2.2.2, g1]
    have hne : ∀ r ∈ records m1, C.key r ≠ C.key (k, dflt) := by
      intro r hr hrk
      have := List.filter_eq_nil_iff.1 hk1 r hr
      rw [hkey (k, dflt)] at hrk
      simp [hrk] at this
    have hone : ∀ j, (ofKey C j (records m1)).length ≤ 1 := by
      intro j
      rcases hm1.2.2.2 j with ⟨h1, _⟩ | h1 <;> rw [h1] <;> simp
    obtain ⟨m2, f1, f2, f3⟩ := holds_add hg hm1.holds (k, dflt) (Or.inl ⟨hne, hone⟩)
    have hm2 : HoldsMap C hash dflt m2 f := by
      refine ⟨f2.1, f2.2.1, f2.2.2.1, fun j => ?_⟩
      rw [f2.2.2.2]
      by_cases hj : j = k
      · subst hj
        right
        unfold ofKey at hk1 ⊢
        rw [List.filter_cons_of_pos (by simp [hkey]), hk1, g2]
      · have : ofKey C j ((k, dflt) :: records m1) = ofKey C j (records m1) := by
          unfold ofKey
          rw [List.filter_cons_of_neg (by simp [hkey, Ne.symm hj])]
        rw [this]
        exact hm1.2.2.2 j
    have hk2 : ofKey C k (records m2) = [(k, f k)] := by
      rw [f2.2.2.2]
      unfold ofKey at hk1 ⊢
      rw [List.filter_cons_of_pos (by simp [hkey]), hk1, g2]
    obtain ⟨m3, q1, q2, q3, q4⟩ := holds_find hm2.holds k
    rw [find_ofKey, hk2] at q1 q4
    rw [f1, Option.bind_some, q1, Option.bind_some]
    exact ⟨m3, rfl, hm2.change q2, q4 _ rfl⟩
  · rw [g] at e4 ⊢
    exact ⟨m1, rfl, h.change e2, e4 _ rfl⟩

theorem modify_eq_set {α : Type} (f : α → α) : ∀ {l : List α} {i : Nat} {b : α}, l[i]? = some b → l.modify i f = l.set i (f b) := by
  intro l i b h
  rw [List.modify_eq_set_getElem?, h]
  rfl

theorem mapAssign_holds {C : Config (Entry K V) K} (hkey : ∀ e, C.key e = e.1) (hg : ∀ n, 0 < C.grow n) {hash : K → Nat}
    {dflt : V} {m : Table (Entry K V)} {f : K → V} (h : HoldsMap C hash dflt m f) (k : K) (v : V) :
    ∃ m', mapAssign C hash dflt m k v = some m' ∧ HoldsMap C hash dflt m' (fun j => if j = k then v else f j) := by
  obtain ⟨m1, e1, e2, b, e3, e4⟩ := mapAt_holds hkey hg h k
  unfold mapAssign
  rw [e1, Option.map_some, modify_eq_set _ e3]
  refine ⟨_, rfl, ?_⟩
  obtain ⟨items, sz⟩ := b
  cases items with
  | nil => cases e4
  | cons e es =>
    injection e4 with e4; subst e4
    obtain ⟨h0, hs, hp, hk⟩ := e2
    have hbk := ofKey_records hp e3 (k := k) rfl
    refine ⟨by simpa using h0, ?_, ?_, ?_⟩
    · apply sized_set hs
      have := hs _ (List.mem_of_getElem? e3)
      simpa [writeTop] using this
    · apply placed_set hp
      intro r hr
      rcases List.mem_cons.1 hr with rfl | hr
      · rw [hkey]
      · exact hp _ _ e3 r (by simp [hr])
    · intro j
      by_cases hj : j = k
      · subst hj
        right
        dsimp only
        rw [if_pos rfl, hbk.2]
        have h1 := hbk.1
        rcases hk j with ⟨g1, _⟩ | g1
        · rw [g1] at h1
          unfold ofKey at h1
          rw [List.filter_cons_of_pos (by simp [hkey])] at h1
          cases h1
        · rw [g1] at h1
          unfold ofKey at h1
          rw [List.filter_cons_of_pos (by simp [hkey])] at h1
          injection h1 with _ h1
          unfold ofKey
          simp only [writeTop]
          rw [List.filter_cons_of_pos (by simp [hkey]), ← h1]
      · dsimp only
        rw [if_neg hj, ofKey_set_other e3]
        · exact hk j
        · unfold ofKey
          simp only [writeTop]
          rw [List.filter_cons_of_neg (by simp [hkey, Ne.symm hj]), List.filter_cons_of_neg (by simp [hkey, Ne.symm hj])]

/-! ### shrinking -/

theorem shrinkBucket_items (dflt : V) : ∀ n (b : Bucket (Entry K V)), b.items.length ≤ n → b.size = b.items.length →
    (shrinkBucket dflt n b).items = b.items.filter (fun e => decide (e.2 ≠ dflt)) ∧
    (shrinkBucket dflt n b).size = (shrinkBucket dflt n b).items.length := by
  intro n
  induction n with
  | zero =>
    intro b hb hs
    have : b.items = [] := List.length_eq_zero_iff.1 (by omega)
    rw [shrinkBucket, this] ; exact ⟨rfl, by rw [hs, this]⟩
  | succ n ih =>
    intro b hb hs
    rw [shrinkBucket]
    unfold Bucket.remove
    cases htf : takeFirst (fun e => decide (e.2 = dflt)) b.items with
    | none =>
      dsimp only
      refine ⟨?_, hs⟩
      rw [eq_comm, List.filter_eq_self]
      intro e he
      simpa using takeFirst_none.1 htf e he
    | some r =>
      dsimp only
      have hl := (takeFirst_perm htf).length_eq
      rw [List.length_cons] at hl
      obtain ⟨g1, g2⟩ := ih ⟨r.2, b.size - 1⟩ (show r.2.length ≤ n by omega) (show b.size - 1 = r.2.length by omega)
      refine ⟨?_, g2⟩
      rw [g1]
      exact (takeFirst_filter_other htf (by intro x hx; simp only [decide_eq_true_eq] at hx; simp [hx])).symm

theorem records_shrink (dflt : V) : ∀ {m : Table (Entry K V)}, Sized m →
    records (shrink dflt m) = (records m).filter (fun e => decide (e.2 ≠ dflt)) := by
  intro m
  unfold shrink
  induction m with
  | nil => intro _; rfl
  | cons b bs ih =>
    intro hs
    rw [List.map_cons, records, records, List.filter_append, ih (fun x hx => hs x (by simp [hx])),
      (shrinkBucket_items dflt _ b (Nat.le_refl _) (hs b (by simp))).1]

theorem shrink_holds {C : Config (Entry K V) K} {hash : K → Nat} {dflt : V} {m : Table (Entry K V)} {f : K → V}
    (h : HoldsMap C hash dflt m f) : HoldsMap C hash dflt (shrink dflt m) f ∧
      (∀ e ∈ records (shrink dflt m), e.2 ≠ dflt) ∧ (shrink dflt m).length = m.length := by
  obtain ⟨h0, hs, hp, hk⟩ := h
  have hlen : (shrink dflt m).length = m.length := by simp [shrink]
  refine ⟨⟨by rw [hlen]; exact h0, ?_, ?_, ?_⟩, ?_, hlen⟩
  · intro b hb
    obtain ⟨b0, hb0, rfl⟩ := List.mem_map.1 hb
    exact (shrinkBucket_items dflt _ b0 (Nat.le_refl _) (hs b0 hb0)).2
  · intro i b hb r hr
    rw [hlen]
    unfold shrink at hb
    rw [List.getElem?_map, Option.map_eq_some_iff] at hb
    obtain ⟨b0, hb0, rfl⟩ := hb
    rw [(shrinkBucket_items dflt _ b0 (Nat.le_refl _) (hs b0 (List.mem_of_getElem? hb0))).1] at hr
    exact hp i b0 hb0 r (List.mem_filter.1 hr).1
  · intro k
    have e : ofKey C k (records (shrink dflt m)) = (ofKey C k (records m)).filter (fun e => decide (e.2 ≠ dflt)) := by
      rw [records_shrink dflt hs]
      unfold ofKey
      rw [List.filter_filter, List.filter_filter]
      congr 1
      funext x
      rw [Bool.and_comm]
    rw [e]
    rcases hk k with ⟨g1, g2⟩ | g
    · left; rw [g1]; exact ⟨rfl, g2⟩
    · rw [g]
      by_cases hf : f k = dflt
      · left; exact ⟨by simp [hf], hf⟩
      · right; simp [hf]
  · intro e he
    rw [records_shrink dflt hs] at he
    simpa using (List.mem_filter.1 he).2

theorem map_holds (limit : Nat) (grow : Nat → Nat) (hg : ∀ n, 0 < grow n) (hash : K → Nat) (dflt : V) (ops : List (MapOp K V)) :
    ∃ m, mapRun (mapConfig K V limit grow) hash dflt ops new = some ((Spec.mapRun dflt ops fun _ => dflt).1, m) ∧
      HoldsMap (mapConfig K V limit grow) hash dflt m (Spec.mapRun dflt ops fun _ => dflt).2 := by
  have key : ∀ (ops : List (MapOp K V)) m f, HoldsMap (mapConfig K V limit grow) hash dflt m f →
      ∃ m', mapRun (mapConfig K V limit grow) hash dflt ops m = some ((Spec.mapRun dflt ops f).1, m') ∧
        HoldsMap (mapConfig K V limit grow) hash dflt m' (Spec.mapRun dflt ops f).2 := by
    intro ops
    induction ops with
    | nil => intro m f h; exact ⟨m, rfl, h⟩
    | cons o os ih =>
      intro m f h
      have one : ∃ m1, mapStep (mapConfig K V limit grow) hash dflt m o = some ((Spec.mapStep dflt f o).1, m1) ∧
          HoldsMap (mapConfig K V limit grow) hash dflt m1 (Spec.mapStep dflt f o).2 := by
        cases o with
        | read k =>
          obtain ⟨m1, e1, e2⟩ := mapRead_holds h k
          exact ⟨m1, by simp [mapStep, e1, Spec.mapStep], e2⟩
        | «at» k =>
          obtain ⟨m1, e1, e2, _⟩ := mapAt_holds (fun _ => rfl) hg h k
          exact ⟨m1, by simp [mapStep, e1, Spec.mapStep], e2⟩
        | assign k v =>
          obtain ⟨m1, e1, e2⟩ := mapAssign_holds (fun _ => rfl) hg h k v
          exact ⟨m1, by simp [mapStep, e1, Spec.mapStep], e2⟩
        | shrink => exact ⟨_, rfl, (shrink_holds h).1⟩
        | clear => exact ⟨_, rfl, holdsMap_new _ hash dflt⟩
      obtain ⟨m1, e1, e2⟩ := one
      obtain ⟨m2, f1, f2⟩ := ih m1 _ e2
      exact ⟨m2, by simp only [mapRun, e1, Option.bind_some, f1, Option.map_some, Spec.mapRun], f2⟩
  exact key ops new _ (holdsMap_new _ hash dflt)

/-- C41: in every history, with any hash and any growth, each read returns the value last assigned to the key, or the default;
`shrink` changes nothing. -/
theorem map_correct (limit : Nat) (grow : Nat → Nat) (hg : ∀ n, 0 < grow n) (hash : K → Nat) (dflt : V) (ops : List (MapOp K V)) :
    ∃ m, mapRun (mapConfig K V limit grow) hash dflt ops new = some ((Spec.mapRun dflt ops fun _ => dflt).1, m) := by
  obtain ⟨m, h, _⟩ := map_holds limit grow hg hash dflt ops
  exact ⟨m, h⟩

example : (mapRun (mapConfig Nat Nat 1 (fun n => 2 * n)) id 0
      [.assign 3 30, .assign 8 80, .read 3, .at 5, .assign 3 0, .shrink, .read 3, .read 8] new).map (·.1)
    = some [none, none, some 30, some 0, none, none, some 0, some 80] := by decide +kernel

/-! ### equality -/

theorem holds_mem {C : Config (Entry K V) K} (hkey : ∀ e, C.key e = e.1) {hash : K → Nat} {dflt : V} {m : Table (Entry K V)}
    {f : K → V} (h : HoldsMap C hash dflt m f) (hnd : ∀ e ∈ records m, e.2 ≠ dflt) (e : Entry K V) :
    e ∈ records m ↔ f e.1 = e.2 ∧ e.2 ≠ dflt := by
  have hk := h.2.2.2 e.1
  have hiff : e ∈ records m ↔ e ∈ ofKey C e.1 (records m) := by
    unfold ofKey; rw [List.mem_filter]; simp [hkey]
  constructor
  · intro he
    have hne := hnd e he
    rw [hiff] at he
    rcases hk with ⟨g, _⟩ | g
    · rw [g] at he; cases he
    · rw [g, List.mem_singleton] at he
      exact ⟨(congrArg Prod.snd he).symm, hne⟩
  · rintro ⟨h1, h2⟩
    rw [hiff]
    rcases hk with ⟨_, g⟩ | g
    · exact absurd (h1.symm.trans g) h2
    · rw [g, List.mem_singleton, h1]

theorem holds_nodup {C : Config (Entry K V) K} {hash : K → Nat} {dflt : V} {m : Table (Entry K V)}
    {f : K → V} (h : HoldsMap C hash dflt m f) : (records m).Nodup := by
  rw [List.nodup_iff_count_le_one]
  intro e
  have h1 : (records m).count e ≤ (ofKey C (C.key e) (records m)).length := by
    unfold ofKey
    rw [List.count, List.countP_eq_length_filter, ← List.countP_eq_length_filter, ← List.countP_eq_length_filter]
    apply List.countP_mono_left
    intro x _ hx
    have : x = e := by simpa using hx
    simp [this]
  rcases h.2.2.2 (C.key e) with ⟨g, _⟩ | g <;> rw [g] at h1 <;> simpa using h1.trans (by simp)

theorem agreeLoop_holds {C : Config (Entry K V) K} {hash : K → Nat} {dflt : V} : ∀ (es : List (Entry K V)) {a : Table (Entry K V)}
    {g : K → V}, HoldsMap C hash dflt a g →
    ∃ b a', agreeLoop C hash dflt es a = some (b, a') ∧ HoldsMap C hash dflt a' g ∧ (b = true ↔ ∀ e ∈ es, g e.1 = e.2) := by
  intro es
  induction es with
  | nil => intro a g h; exact ⟨true, a, rfl, h, by simp⟩
  | cons e es ih =>
    intro a g h
    obtain ⟨a1, e1, e2⟩ := mapRead_holds h e.1
    rw [agreeLoop, e1, Option.bind_some]
    by_cases hv : g e.1 = e.2
    · rw [if_neg (by simpa using hv)]
      obtain ⟨b, a', f1, f2, f3⟩ := ih e2
      exact ⟨b, a', f1, f2, by rw [f3]; simp [hv]⟩
    · rw [if_pos hv]
      exact ⟨false, a1, rfl, e2, by simp [hv]⟩

theorem mapEq_holds {C : Config (Entry K V) K} (hkey : ∀ e, C.key e = e.1) {hash : K → Nat} {dflt : V} {m a : Table (Entry K V)}
    {f g : K → V} (h : HoldsMap C hash dflt m f) (h' : HoldsMap C hash dflt a g) :
    ∃ b m' a', mapEq C hash dflt m a = some (b, m', a') ∧ (b = true ↔ f = g) ∧
      HoldsMap C hash dflt m' f ∧ HoldsMap C hash dflt a' g := by
  obtain ⟨s1, s2, _⟩ := shrink_holds h
  obtain ⟨t1, t2, _⟩ := shrink_holds h'
  have hsz1 := sized_size s1.2.1
  have hsz2 := sized_size t1.2.1
  have hfg : f = g → (records (shrink dflt m)).Perm (records (shrink dflt a)) := by
    intro hfg
    rw [List.perm_ext_iff_of_nodup (holds_nodup s1) (holds_nodup t1)]
    intro e
    rw [holds_mem hkey s1 s2, holds_mem hkey t1 t2, hfg]
  unfold mapEq
  by_cases hsz : size (shrink dflt m) = size (shrink dflt a)
  · rw [if_neg (by simpa using hsz)]
    obtain ⟨b, a', f1, f2, f3⟩ := agreeLoop_holds (records (shrink dflt m)) t1
    rw [f1]
    refine ⟨b, _, a', rfl, ?_, s1, f2⟩
    rw [f3]
    constructor
    · intro hall
      have hsub : records (shrink dflt m) ⊆ records (shrink dflt a) := by
        intro e he
        rw [holds_mem hkey t1 t2]
        exact ⟨hall e he, s2 e he⟩
      have hperm : (records (shrink dflt m)).Perm (records (shrink dflt a)) :=
        ((holds_nodup s1).subperm hsub).perm_of_length_le (by omega)
      funext k
      by_cases hf : f k = dflt
      · by_cases hgk : g k = dflt
        · rw [hf, hgk]
        · have := (holds_mem hkey t1 t2 (k, g k)).2 ⟨rfl, hgk⟩
          rw [← hperm.mem_iff, holds_mem hkey s1 s2] at this
          exact this.1
      · have := (holds_mem hkey s1 s2 (k, f k)).2 ⟨rfl, hf⟩
        rw [hperm.mem_iff, holds_mem hkey t1 t2] at this
        exact this.1.symm
    · rintro rfl e he
      exact ((holds_mem hkey s1 s2 e).1 he).1
  · rw [if_pos hsz]
    refine ⟨false, _, _, rfl, ?_, s1, t1⟩
    simp only [Bool.false_eq_true, false_iff]
    intro hfg'
    apply hsz
    rw [hsz1, hsz2, (hfg hfg').length_eq]

/-- C41: comparing two different maps returns and says exactly whether they are the same function; what the maps hold is not
changed by it. -/
theorem map_equal_correct (limit : Nat) (grow : Nat → Nat) (hg : ∀ n, 0 < grow n) (hash : K → Nat) (dflt : V)
    (ops ops' : List (MapOp K V)) :
    ∃ o o' m a b m' a', mapRun (mapConfig K V limit grow) hash dflt ops new = some (o, m) ∧
      mapRun (mapConfig K V limit grow) hash dflt ops' new = some (o', a) ∧
      mapEq (mapConfig K V limit grow) hash dflt m a = some (b, m', a') ∧
      (b = true ↔ (Spec.mapRun dflt ops fun _ => dflt).2 = (Spec.mapRun dflt ops' fun _ => dflt).2) ∧
      (∀ k, ∃ x, mapRead (mapConfig K V limit grow) hash dflt m' k = some ((Spec.mapRun dflt ops fun _ => dflt).2 k, x)) ∧
      (∀ k, ∃ x, mapRead (mapConfig K V limit grow) hash dflt a' k = some ((Spec.mapRun dflt ops' fun _ => dflt).2 k, x)) := by
  obtain ⟨m, e1, e2⟩ := map_holds limit grow hg hash dflt ops
  obtain ⟨a, f1, f2⟩ := map_holds limit grow hg hash dflt ops'
  obtain ⟨b, m', a', g1, g2, g3, g4⟩ := mapEq_holds (fun _ => rfl) e2 f2
  refine ⟨_, _, m, a, b, m', a', e1, f1, g1, g2, ?_, ?_⟩
  · intro k; obtain ⟨x, hx, _⟩ := mapRead_holds g3 k; exact ⟨x, hx⟩
  · intro k; obtain ⟨x, hx, _⟩ := mapRead_holds g4 k; exact ⟨x, hx⟩

example : ((mapRun (mapConfig Nat Nat 3 (fun n => 2 * n)) id 0 [.assign 3 30, .assign 8 80] new).bind fun m =>
    (mapRun (mapConfig Nat Nat 3 (fun n => 2 * n)) id 0 [.at 1, .assign 8 80, .assign 3 30] new).bind fun a =>
      (mapEq (mapConfig Nat Nat 3 (fun n => 2 * n)) id 0 m.2 a.2).map (·.1)) = some true := by decide +kernel

/-! ### a map compared with itself -/

theorem selfBucketLoop_never (C : Config (Entry K V) K) (hkey : ∀ e, C.key e = e.1) : ∀ fuel (l : List (Entry K V)) e, e ∈ l →
    2 ≤ l.length → (l.map (·.1)).Nodup → selfBucketLoop C fuel (some e) l = none := by
  intro fuel
  induction fuel with
  | zero => intro l e _ _ _; rfl
  | succ fuel ih =>
    intro l e he hl hn
    rw [selfBucketLoop]
    cases htf : takeFirst (fun r => decide (C.key r = e.1)) l with
    | none => rfl
    | some r =>
      dsimp only
      have hp := takeFirst_perm htf
      obtain ⟨l1, l2, e1, e2, e3, e4⟩ := takeFirst_some htf
      have hre : r.1 = e := by
        have h1 : r.1 ∈ l := hp.mem_iff.1 (by simp)
        have h2 : r.1.1 = e.1 := by simpa [hkey] using e3
        exact List.inj_on_of_nodup_map hn h1 he h2
      rw [if_neg (by rw [hre]; simp)]
      have hlen := hp.length_eq
      rw [List.length_cons] at hlen
      cases hr : r.2 with
      | nil => rw [hr] at hlen; simp at hlen; omega
      | cons y ys =>
        rw [hr] at hp
        exact ih (r.1 :: y :: ys) y (by simp) (by simp) ((hp.map (·.1)).nodup_iff.2 hn)

theorem holds_keys_nodup {C : Config (Entry K V) K} (hkey : ∀ e, C.key e = e.1) {hash : K → Nat} {dflt : V}
    {m : Table (Entry K V)} {f : K → V} (h : HoldsMap C hash dflt m f) : ((records m).map (·.1)).Nodup := by
  apply List.Nodup.map_on _ (holds_nodup h)
  intro x hx y hy hxy
  have h1 : ∀ z ∈ records m, z.1 = x.1 → z = (x.1, f x.1) := by
    intro z hz hzx
    have : z ∈ ofKey C x.1 (records m) := by unfold ofKey; rw [List.mem_filter]; exact ⟨hz, by simp [hkey, hzx]⟩
    rcases h.2.2.2 x.1 with ⟨g, _⟩ | g
    · rw [g] at this; cases this
    · rw [g, List.mem_singleton] at this; exact this
  rw [h1 x hx rfl, h1 y hy hxy.symm]

theorem selfLoop_never (C : Config (Entry K V) K) (hkey : ∀ e, C.key e = e.1) (fuel : Nat) : ∀ (m : Table (Entry K V)),
    ((records m).map (·.1)).Nodup → (∃ b ∈ m, 2 ≤ b.items.length) → selfLoop C fuel m = none := by
  intro m
  induction m with
  | nil => rintro _ ⟨b, hb, _⟩; cases hb
  | cons b bs ih =>
    rintro hn ⟨b', hb', hl⟩
    rw [records, List.map_append] at hn
    rw [selfLoop]
    have hnb := hn.of_append_left
    have hnbs := hn.of_append_right
    match hbi : b.items with
    | [] =>
      rcases List.mem_cons.1 hb' with rfl | hb'
      · rw [hbi] at hl; simp at hl
      · simp only [List.head?_nil, selfBucketLoop, Option.bind_some, if_true]
        exact ih hnbs ⟨b', hb', hl⟩
    | [x] =>
      rcases List.mem_cons.1 hb' with rfl | hb'
      · rw [hbi] at hl; simp at hl
      · cases fuel with
        | zero => rfl
        | succ fuel =>
          simp only [List.head?_cons, selfBucketLoop, takeFirst, hkey, decide_true, if_true, List.head?_nil, ne_eq,
            not_true_eq_false, if_false, Option.bind_some]
          exact ih hnbs ⟨b', hb', hl⟩
    | x :: y :: ys =>
      rw [hbi] at hnb
      rw [List.head?_cons, selfBucketLoop_never C hkey fuel (x :: y :: ys) x (by simp) (by simp) hnb]
      rfl

theorem selfLoop_true (C : Config (Entry K V) K) (hkey : ∀ e, C.key e = e.1) (fuel : Nat) : ∀ (m : Table (Entry K V)),
    (∀ b ∈ m, b.items.length ≤ 1) → selfLoop C (fuel + 1) m = some true := by
  intro m
  induction m with
  | nil => intro _; rfl
  | cons b bs ih =>
    intro h
    have hb := h b (by simp)
    rw [selfLoop]
    match hbi : b.items with
    | [] =>
      simp only [List.head?_nil, selfBucketLoop, Option.bind_some, if_true]
      exact ih fun x hx => h x (by simp [hx])
    | [x] =>
      simp only [List.head?_cons, selfBucketLoop, takeFirst, hkey, decide_true, if_true, List.head?_nil, ne_eq,
        not_true_eq_false, if_false, Option.bind_some]
      exact ih fun x hx => h x (by simp [hx])
    | x :: y :: ys => rw [hbi] at hb; simp at hb

theorem mapEqSelf_holds {C : Config (Entry K V) K} (hkey : ∀ e, C.key e = e.1) {hash : K → Nat} {dflt : V}
    {m : Table (Entry K V)} {f : K → V} (h : HoldsMap C hash dflt m f) :
    ((∃ k j, k ≠ j ∧ f k ≠ dflt ∧ f j ≠ dflt ∧ hash k % m.length = hash j % m.length) →
      Arith.Spec.NeverReturns fun fuel => mapEqSelf C dflt fuel m) ∧
    (¬ (∃ k j, k ≠ j ∧ f k ≠ dflt ∧ f j ≠ dflt ∧ hash k % m.length = hash j % m.length) →
      Arith.Spec.Returns (fun fuel => mapEqSelf C dflt fuel m) true) := by
  obtain ⟨s1, s2, s3⟩ := shrink_holds h
  have hn := holds_keys_nodup hkey s1
  constructor
  · rintro ⟨k, j, hkj, hk, hj, hh⟩ fuel
    apply selfLoop_never C hkey fuel _ hn
    have m1 := (holds_mem hkey s1 s2 (k, f k)).2 ⟨rfl, hk⟩
    have m2 := (holds_mem hkey s1 s2 (j, f j)).2 ⟨rfl, hj⟩
    obtain ⟨i1, b1, g1, g2⟩ := mem_records.1 m1
    obtain ⟨i2, b2, q1, q2⟩ := mem_records.1 m2
    have p1 := s1.2.2.1 i1 b1 g1 _ g2
    have p2 := s1.2.2.1 i2 b2 q1 _ q2
    rw [hkey, s3] at p1 p2
    have : i1 = i2 := by rw [← p1, ← p2]; exact hh
    subst this
    rw [g1] at q1
    injection q1 with q1; subst q1
    refine ⟨b1, List.mem_of_getElem? g1, ?_⟩
    match hb : b1.items with
    | [] => rw [hb] at g2; cases g2
    | [x] =>
      rw [hb, List.mem_singleton] at g2 q2
      exact absurd (congrArg Prod.fst (g2.trans q2.symm)) hkj
    | x :: y :: ys => simp
  · intro hno
    refine ⟨1, fun fuel hf => ?_⟩
    obtain ⟨fuel, rfl⟩ : ∃ n, fuel = n + 1 := ⟨fuel - 1, by omega⟩
    apply selfLoop_true C hkey
    intro b hb
    obtain ⟨i, hi, hbi⟩ := List.mem_iff_getElem.1 hb
    have hb' : (shrink dflt m)[i]? = some b := by rw [List.getElem?_eq_getElem hi, hbi]
    match hbi' : b.items with
    | [] => simp
    | [x] => simp
    | x :: y :: ys =>
      exfalso
      apply hno
      have hx : x ∈ b.items := by rw [hbi']; simp
      have hy : y ∈ b.items := by rw [hbi']; simp
      have hx1 := (holds_mem hkey s1 s2 x).1 (mem_records.2 ⟨i, b, hb', hx⟩)
      have hy1 := (holds_mem hkey s1 s2 y).1 (mem_records.2 ⟨i, b, hb', hy⟩)
      have px := s1.2.2.1 i b hb' x hx
      have py := s1.2.2.1 i b hb' y hy
      rw [hkey, s3] at px py
      refine ⟨x.1, y.1, ?_, by rw [hx1.1]; exact hx1.2, by rw [hy1.1]; exact hy1.2, by rw [px, py]⟩
      have hnb : (b.items.map (·.1)).Nodup := by
        obtain ⟨h1, _⟩ := records_at hb'
        rw [h1, List.map_append, List.map_append] at hn
        exact (hn.of_append_right).of_append_left
      rw [hbi'] at hnb
      simp only [List.map_cons, List.nodup_cons, List.mem_cons, not_or] at hnb
      exact hnb.1.1

/-- C41, `m == m`: it returns, and says they are equal, exactly if no two keys with other than the default value share a
bucket.  If two do, it never returns: the comparison moves the record it has just visited to the front of the list it is
walking. -/
theorem map_equal_self_characterised (limit : Nat) (grow : Nat → Nat) (hg : ∀ n, 0 < grow n) (hash : K → Nat) (dflt : V)
    (ops : List (MapOp K V)) :
    ∃ o m, mapRun (mapConfig K V limit grow) hash dflt ops new = some (o, m) ∧
      let f := (Spec.mapRun dflt ops fun _ => dflt).2
      ((∃ k j, k ≠ j ∧ f k ≠ dflt ∧ f j ≠ dflt ∧ hash k % m.length = hash j % m.length) →
        Arith.Spec.NeverReturns fun fuel => mapEqSelf (mapConfig K V limit grow) dflt fuel m) ∧
      (¬ (∃ k j, k ≠ j ∧ f k ≠ dflt ∧ f j ≠ dflt ∧ hash k % m.length = hash j % m.length) →
        Arith.Spec.Returns (fun fuel => mapEqSelf (mapConfig K V limit grow) dflt fuel m) true) := by
  obtain ⟨m, e1, e2⟩ := map_holds limit grow hg hash dflt ops
  exact ⟨_, m, e1, mapEqSelf_holds (fun _ => rfl) e2⟩

/-- C41 is false for `m == m`: with the keys 3 and 8 assigned, both in the same of the five buckets, it never returns. -/
theorem map_equal_self_refuted : ∃ m, mapRun (mapConfig Nat Nat 10 (fun n => 2 * n)) id 0 [.assign 3 30, .assign 8 80] new =
      some ([none, none], m) ∧ Arith.Spec.NeverReturns fun fuel => mapEqSelf (mapConfig Nat Nat 10 (fun n => 2 * n)) 0 fuel m := by
  refine ⟨_, rfl, ?_⟩
  intro fuel
  apply selfLoop_never _ (fun _ => rfl)
  · decide +kernel
  · decide +kernel

end ELC.Table
