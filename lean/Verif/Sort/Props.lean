import Verif.Sort.Local

/-! Property C28: the sorting routines. -/
namespace ELC.Sort
variable {α : Type} (cmp : α → α → Ordering) [Std.TransCmp cmp]
open Spec

/-- C28: `heapsort` sorts, for every total preorder, memory and range. -/
theorem heapsort_sorts (m : Nat → α) (b e : Nat) : Sorts cmp m (heapsort cmp m b e) b e :=
  sorts_of (heapsort_perm_sorted cmp m b e).1 (heapsort_perm_sorted cmp m b e).2

/-- C28: `insertion_sort` sorts. -/
theorem insertion_sort_sorts (m : Nat → α) (b e : Nat) :
    Sorts cmp m (insertionSort cmp m b e) b e :=
  sorts_of (insertionSort_spec cmp m b e).2.permOn (insertionSort_spec cmp m b e).1

/-- C28: `insertion_sort` is stable: the rearrangement `σ` (result position ↦ original position)
keeps the order of elements that compare equal. -/
theorem insertion_sort_stable (m : Nat → α) (b e : Nat) :
    ∃ σ : Equiv.Perm Nat, (∀ k, b ≤ k → k < e → b ≤ σ k ∧ σ k < e) ∧
      (∀ k, insertionSort cmp m b e k = m (σ k)) ∧
      ∀ i j, b ≤ i → i < j → j < e →
        cmp (insertionSort cmp m b e i) (insertionSort cmp m b e j) = .eq → σ i < σ j := by
  obtain ⟨σ, h1, h2, h3⟩ := (insertionSort_spec cmp m b e).2
  exact ⟨σ, fun k => perm_maps h1 k, h2, h3⟩

/-- C28: `quicksort` sorts. -/
theorem quicksort_sorts (m : Nat → α) (b e : Nat) : Sorts cmp m (quicksort cmp m b e) b e :=
  sorts_of (quicksort_spec cmp m b e).1 (quicksort_spec cmp m b e).2

/-- C28: `introsort` (the default `sort`) sorts, whatever depth limit the floating point logarithm
yields. -/
theorem introsort_sorts (depthLimit : Nat) (m : Nat → α) (b e : Nat) :
    Sorts cmp m (introsort cmp depthLimit m b e) b e := by
  unfold introsort
  split
  · exact insertion_sort_sorts cmp m b e
  · exact sorts_of (introsortLoop_spec cmp m b e depthLimit).1
      (introsortLoop_spec cmp m b e depthLimit).2

/-- C28: none of the sorts looks at anything outside the range: on memories that agree on the range
they produce the same range. -/
theorem sorts_read_only_range (depthLimit : Nat) (m m' : Nat → α) (b e : Nat)
    (h : AgreeOn m m' b e) :
    AgreeOn (heapsort cmp m b e) (heapsort cmp m' b e) b e ∧
    AgreeOn (insertionSort cmp m b e) (insertionSort cmp m' b e) b e ∧
    AgreeOn (quicksort cmp m b e) (quicksort cmp m' b e) b e ∧
    AgreeOn (introsort cmp depthLimit m b e) (introsort cmp depthLimit m' b e) b e := by
  refine ⟨heapsort_local cmp h, insertionSort_local cmp h, quicksort_local cmp m b e m' h, ?_⟩
  unfold introsort
  split
  · exact insertionSort_local cmp h
  · exact introsortLoop_local cmp m b e depthLimit m' h

/-- C28, consequence: when only equal elements compare equal, the four routines agree. -/
theorem sorts_unique [Std.LawfulEqCmp cmp] (m m₁ m₂ : Nat → α) (b e : Nat)
    (h₁ : Sorts cmp m m₁ b e) (h₂ : Sorts cmp m m₂ b e) : segment m₁ b e = segment m₂ b e := by
  refine List.Perm.eq_of_pairwise ?_ h₁.1 h₂.1 (h₁.2.1.trans h₂.2.1.symm)
  intro x y _ _ hxy hyx
  have : cmp x y = .eq := by
    cases hc : cmp x y with
    | eq => rfl
    | gt => exact absurd hc hxy
    | lt => exact absurd (Std.OrientedCmp.gt_iff_lt.2 hc) hyx
  exact Std.LawfulEqCmp.eq_of_compare this

/-- Concrete instance: the hypotheses are met by numbers with their usual order, and by a preorder
that identifies different elements. -/
example : Std.TransCmp (fun x y : Nat => compare x y) := inferInstance

example : segment (insertionSort (fun x y : Nat => compare x y)
    (fun k => [9, 3, 1, 2, 0].getD k 7) 1 4) 0 5 = [9, 1, 2, 3, 0] := by
  simp [segment, insertionSort, insertionLoop, insertStep, shiftLoop, store, List.range',
    compare, compareOfLessAndEq]

end ELC.Sort
