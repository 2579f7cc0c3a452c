import Verif.Sort.Lemmas

/-! The sorts depend on nothing outside `[begin,end)`: on memories that agree there, the results
agree there. -/
namespace ELC.Sort
variable {α : Type} (cmp : α → α → Ordering)
open Spec (AgreeOn)

theorem AgreeOn.swap {m m' : Nat → α} {b e : Nat} (h : AgreeOn m m' b e) {i j : Nat} (hi : b ≤ i)
    (hi' : i < e) (hj : b ≤ j) (hj' : j < e) : AgreeOn (swapAt m i j) (swapAt m' i j) b e := by
  intro k h1 h2
  unfold swapAt
  rw [h i hi hi', h j hj hj', h k h1 h2]

theorem AgreeOn.store {m m' : Nat → α} {b e : Nat} (h : AgreeOn m m' b e) (i : Nat) (x : α) :
    AgreeOn (store m i x) (store m' i x) b e := by
  intro k h1 h2
  unfold Sort.store
  rw [h k h1 h2]

theorem pickLargest_local {m m' : Nat → α} {b e : Nat} (h : AgreeOn m m' b e) {i : Nat} (hi : b ≤ i)
    (hi' : i < e) : pickLargest cmp m b e i = pickLargest cmp m' b e i := by
  unfold pickLargest
  simp only
  set l := b + 2 * (i - b) + 1 with hl
  have c1 : (l < e ∧ cmp (m l) (m i) = .gt) ↔ (l < e ∧ cmp (m' l) (m' i) = .gt) := by
    constructor <;> rintro ⟨h1, h2⟩ <;> refine ⟨h1, ?_⟩
    · rw [← h l (by omega) h1, ← h i hi hi']; exact h2
    · rw [h l (by omega) h1, h i hi hi']; exact h2
  have c2 : ∀ g, b ≤ g → g < e → ((l + 1 < e ∧ cmp (m (l + 1)) (m g) = .gt) ↔
      (l + 1 < e ∧ cmp (m' (l + 1)) (m' g) = .gt)) := by
    intro g g1 g2
    constructor <;> rintro ⟨h1, h2⟩ <;> refine ⟨h1, ?_⟩
    · rw [← h (l + 1) (by omega) h1, ← h g g1 g2]; exact h2
    · rw [h (l + 1) (by omega) h1, h g g1 g2]; exact h2
  by_cases h1 : l < e ∧ cmp (m l) (m i) = .gt
  · rw [if_pos h1, if_pos (c1.1 h1), if_congr (c2 l (by omega) h1.1) rfl rfl]
  · rw [if_neg h1, if_neg (fun h => h1 (c1.2 h)), if_congr (c2 i hi hi') rfl rfl]

theorem heapify_local {b e : Nat} (m : Nat → α) (i : Nat) (hi : b ≤ i) (hi' : i < e) :
    ∀ m', AgreeOn m m' b e → AgreeOn (heapify cmp m b e i) (heapify cmp m' b e i) b e := by
  fun_induction heapify cmp m b e i with
  | case1 m i h ih =>
    intro m' ha
    have hp := pickLargest_local cmp ha hi hi'
    have hc := pickLargest_cases cmp m b e i
    rw [heapify.eq_def cmp m' b e i, if_pos (by rw [← hp]; exact h), ← hp]
    exact ih (by omega) (by omega) _ (AgreeOn.swap ha hi hi' (by omega) (by omega))
  | case2 m i h =>
    intro m' ha
    rw [heapify.eq_def cmp m' b e i, if_neg (by rw [← pickLargest_local cmp ha hi hi']; exact h)]
    exact ha

theorem heapify_outer_local {b e e' : Nat} (m m' : Nat → α) (i : Nat) (hi : b ≤ i) (hi' : i < e)
    (hee : e ≤ e') (ha : AgreeOn m m' b e') :
    AgreeOn (heapify cmp m b e i) (heapify cmp m' b e i) b e' := by
  intro k h1 h2
  by_cases hk : k < e
  · exact heapify_local cmp m i hi hi' m' (fun j j1 j2 => ha j j1 (by omega)) k h1 hk
  · rw [(permOn_heapify cmp m b e i hi hi').frame k (by omega),
      (permOn_heapify cmp m' b e i hi hi').frame k (by omega)]
    exact ha k h1 h2

theorem buildLoop_local {b e : Nat} (k : Nat) : ∀ m m' : Nat → α, b + k ≤ e → AgreeOn m m' b e →
    AgreeOn (buildLoop cmp m b e k) (buildLoop cmp m' b e k) b e := by
  induction k with
  | zero => intro m m' _ h; exact h
  | succ k ih =>
    intro m m' hk h
    exact ih _ _ (by omega) (heapify_local cmp m (b + k) (by omega) (by omega) m' h)

theorem heapify_empty (m : Nat → α) (b : Nat) : heapify cmp m b b b = m := by
  rw [heapify]
  have := pickLargest_cases cmp m b b b
  rw [if_neg (by omega)]

theorem heapsortLoop_local {b e : Nat} (k : Nat) : ∀ m m' : Nat → α, b + k ≤ e →
    AgreeOn m m' b e → AgreeOn (heapsortLoop cmp m b k) (heapsortLoop cmp m' b k) b e := by
  induction k with
  | zero => intro m m' _ h; exact h
  | succ k ih =>
    intro m m' hk h
    refine ih _ _ (by omega) ?_
    have hs := AgreeOn.swap h (i := b) (j := b + k) (by omega) (by omega) (by omega) (by omega)
    by_cases hk0 : k = 0
    · subst hk0
      simp only [Nat.add_zero] at hs ⊢
      rw [heapify_empty, heapify_empty]; exact hs
    · exact heapify_outer_local cmp _ _ b (by omega) (by omega) (by omega) hs

theorem heapsort_local {m m' : Nat → α} {b e : Nat} (h : AgreeOn m m' b e) :
    AgreeOn (heapsort cmp m b e) (heapsort cmp m' b e) b e := by
  by_cases hbe : b ≤ e
  · exact heapsortLoop_local cmp _ _ _ (by omega) (buildLoop_local cmp _ _ _ (by omega) h)
  · intro k h1 h2; omega

theorem shiftLoop_local {b e : Nat} (key : α) (m : Nat → α) (h : Nat) (hb : b ≤ h) (he : h < e) :
    ∀ m', AgreeOn m m' b e →
      AgreeOn (shiftLoop cmp key b m h).1 (shiftLoop cmp key b m' h).1 b e ∧
        (shiftLoop cmp key b m h).2 = (shiftLoop cmp key b m' h).2 := by
  fun_induction shiftLoop cmp key b m h with
  | case1 m h hc ih =>
    intro m' ha
    have e1 := ha (h - 1) (by omega) (by omega)
    rw [shiftLoop.eq_def cmp key b m' h, if_pos (by rw [← e1]; exact hc), ← e1]
    exact ih (by omega) (by omega) _ (AgreeOn.store ha _ _)
  | case2 m h hc =>
    intro m' ha
    rw [shiftLoop.eq_def cmp key b m' h, if_neg ?_]
    · exact ⟨ha, rfl⟩
    · rintro ⟨h1, h2⟩
      apply hc
      refine ⟨h1, ?_⟩
      rw [ha (h - 1) (by omega) (by omega)]; exact h2

theorem insertionLoop_local {b e : Nat} (n : Nat) : ∀ (m m' : Nat → α) (i : Nat), b ≤ i →
    i + n ≤ e → AgreeOn m m' b e →
    AgreeOn (insertionLoop cmp b m i n) (insertionLoop cmp b m' i n) b e := by
  induction n with
  | zero => intro m m' i _ _ h; exact h
  | succ n ih =>
    intro m m' i hb he h
    refine ih _ _ (i + 1) (by omega) (by omega) ?_
    have e1 := h i hb (by omega)
    have := shiftLoop_local cmp (m i) m i hb (by omega) m' h
    simp only [insertStep]
    rw [← e1, this.2]
    exact AgreeOn.store this.1 _ _

theorem insertionSort_local {m m' : Nat → α} {b e : Nat} (h : AgreeOn m m' b e) :
    AgreeOn (insertionSort cmp m b e) (insertionSort cmp m' b e) b e := by
  by_cases hbe : b + 1 ≤ e
  · exact insertionLoop_local cmp _ _ _ _ (by omega) (by omega) h
  · unfold insertionSort
    rw [show e - (b + 1) = 0 by omega]
    exact h

theorem partitionLoop_local {b e : Nat} (n : Nat) : ∀ (m m' : Nat → α) (i j : Nat), b ≤ i → i ≤ j →
    j + n = e - 1 → b < e → AgreeOn m m' b e →
    AgreeOn (partitionLoop cmp e m i j n).1 (partitionLoop cmp e m' i j n).1 b e ∧
      (partitionLoop cmp e m i j n).2 = (partitionLoop cmp e m' i j n).2 := by
  induction n with
  | zero => intro m m' i j _ _ _ _ h; exact ⟨h, rfl⟩
  | succ n ih =>
    intro m m' i j hi hj he hbe h
    have e1 := h j (by omega) (by omega)
    have e2 := h (e - 1) (by omega) (by omega)
    rw [partitionLoop, partitionLoop, ← e1, ← e2]
    split
    · exact ih _ _ _ _ (by omega) (by omega) (by omega) hbe
        (AgreeOn.swap h hi (by omega) (by omega) (by omega))
    · exact ih _ _ _ _ hi (by omega) (by omega) hbe h

theorem partition_local {m m' : Nat → α} {b e : Nat} (hbe : b < e) (h : AgreeOn m m' b e) :
    AgreeOn (partition cmp m b e).1 (partition cmp m' b e).1 b e ∧
      (partition cmp m b e).2 = (partition cmp m' b e).2 := by
  have := partitionLoop_local cmp (b := b) (e := e) (e - 1 - b) m m' b b (by omega) (by omega)
    (by omega) hbe h
  have hb := partitionLoop_bound cmp e (e - 1 - b) m b b
  simp only [partition]
  rw [← this.2]
  exact ⟨AgreeOn.swap this.1 hb.1 (by omega) (by omega) (by omega), rfl⟩

theorem AgreeOn.widen {m m' r r' : Nat → α} {b e b' e' : Nat} (h : AgreeOn m m' b e)
    (h' : AgreeOn r r' b' e')
    (f : ∀ k, k < b' ∨ e' ≤ k → r k = m k) (f' : ∀ k, k < b' ∨ e' ≤ k → r' k = m' k) :
    AgreeOn r r' b e := by
  intro k h1 h2
  by_cases hk : b' ≤ k ∧ k < e'
  · exact h' k hk.1 hk.2
  · rw [f k (by omega), f' k (by omega)]; exact h k h1 h2

theorem quicksort_local [Std.TransCmp cmp] (m : Nat → α) (b e : Nat) : ∀ m', AgreeOn m m' b e →
    AgreeOn (quicksort cmp m b e) (quicksort cmp m' b e) b e := by
  fun_induction quicksort cmp m b e with
  | case1 m b e h ih1 ih2 =>
    intro m' ha
    obtain ⟨p1, p2⟩ := partition_local cmp (by omega) ha
    have hb := partition_bound cmp m b e h
    rw [quicksort.eq_def cmp m' b e, dif_pos h]
    rw [← p2]
    have a1 := ih1 (partition cmp m' b e).1 (fun k h1 h2 => p1 k h1 (by omega))
    have a1' := AgreeOn.widen p1 a1
      (quicksort_spec cmp _ _ _).1.frame (quicksort_spec cmp _ _ _).1.frame
    have a2 := ih2 _ (fun k h1 h2 => a1' k (by omega) h2)
    exact AgreeOn.widen a1' a2
      (quicksort_spec cmp _ _ _).1.frame (quicksort_spec cmp _ _ _).1.frame
  | case2 m b e h =>
    intro m' ha
    rw [quicksort.eq_def cmp m' b e, dif_neg h]
    exact ha

theorem introsortLoop_local [Std.TransCmp cmp] (m : Nat → α) (b e d : Nat) :
    ∀ m', AgreeOn m m' b e →
    AgreeOn (introsortLoop cmp m b e d) (introsortLoop cmp m' b e d) b e := by
  fun_induction introsortLoop cmp m b e d with
  | case1 m b e h =>
    intro m' ha
    rw [introsortLoop.eq_def cmp m' b e 0, if_pos h]
    exact heapsort_local cmp ha
  | case2 m b e h d ih1 ih2 =>
    intro m' ha
    have ht : sizeThreshold = 16 := rfl
    obtain ⟨p1, p2⟩ := partition_local cmp (by omega) ha
    have hb := partition_bound cmp m b e (by omega)
    rw [introsortLoop.eq_def cmp m' b e (d + 1), if_pos h]
    simp only
    rw [← p2]
    have a1 := ih1 (partition cmp m' b e).1 (fun k h1 h2 => p1 k (by omega) h2)
    have a1' := AgreeOn.widen p1 a1
      (introsortLoop_spec cmp _ _ _ _).1.frame (introsortLoop_spec cmp _ _ _ _).1.frame
    have a2 := ih2 _ (fun k h1 h2 => a1' k h1 (by omega))
    exact AgreeOn.widen a1' a2
      (introsortLoop_spec cmp _ _ _ _).1.frame (introsortLoop_spec cmp _ _ _ _).1.frame
  | case3 m b e d h =>
    intro m' ha
    rw [introsortLoop.eq_def cmp m' b e d, if_neg h]
    exact insertionSort_local cmp ha

end ELC.Sort
