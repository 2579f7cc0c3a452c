import Verif.Count.Lemmas
/-! Properties of the counters. -/
namespace ELC.Count

/-! ### C178: the counters tell how much memory is used -/

/-- C178, if the counters are cleared only while no block exists: after every history the memory in use is the sum of the
sizes of the blocks that exist, its maximum is the greatest such sum since the last clearing, what was allocated is what was
freed and what is in use, and the calls are as many as the calls that freed and the blocks (sizes and calls up to the range of
`size_t`). -/
theorem counters_partial (os : List Op) {t : Spec.State} (h : Spec.run ⟨[], 0⟩ os = some t) :
    ∃ s, run St.init os = some s ∧ s.inUse = t.blocks.sum ∧ s.inUseMax = t.peak ∧
      s.allocSize % 2 ^ 64 = (s.freeSize + t.blocks.sum) % 2 ^ 64 ∧
      s.allocCount % 2 ^ 64 = (s.freeCount + t.blocks.length) % 2 ^ 64 := by
  obtain ⟨s, e, hi⟩ := run_inv os inv_init h
  exact ⟨s, e, hi.use, hi.peak, hi.sizes, hi.counts⟩

-- a block that grows, one that shrinks, a refused request
example : Spec.run ⟨[], 0⟩ [.alloc 10 true, .alloc 20 true, .realloc 0 100 true, .realloc 1 5 true, .alloc 7 false, .free 0] =
    some ⟨[5], 120⟩ := by decide

/-- C178: nothing is in use exactly if all blocks that are not empty are freed. -/
theorem leak_free (os : List Op) {t : Spec.State} (h : Spec.run ⟨[], 0⟩ os = some t) :
    ∃ s, run St.init os = some s ∧ (s.inUse = 0 ↔ ∀ b ∈ t.blocks, b = 0) := by
  obtain ⟨s, e, hi⟩ := run_inv os inv_init h
  exact ⟨s, e, by rw [hi.use]; exact sum_zero t.blocks⟩

/-- C178 is false of the program: if the counters are cleared while a block exists, freeing it makes the memory in use and its
maximum nearly 2 to the power of 64. -/
theorem clear_refuted (n : Nat) (h : 0 < n) (hn : n < 2 ^ 64) : ∃ s, run St.init [.alloc n true, .clear, .free 0] = some s ∧
    s.blocks = [] ∧ s.inUse = 2 ^ 64 - n ∧ s.inUseMax = 2 ^ 64 - n := by
  have e : (0 + (M - n) % M) % M = 2 ^ 64 - n := by unfold M; omega
  refine ⟨_, rfl, rfl, e, ?_⟩
  have : (if (0 + (M - n) % M) % M > 0 then (0 + (M - n) % M) % M else 0) = 2 ^ 64 - n := by
    rw [e, if_pos (by omega)]
  exact this

/-- What the counters tell after every history, whenever they are cleared: what is in use now less what was in use when they were
last cleared, and the greatest of these numbers since then; so the memory in use is right exactly if nothing was in use then. -/
theorem counters_characterised (os : List Op) {t : Spec.Since} (h : Spec.runSince ⟨[], [], 0⟩ os = some t) :
    ∃ s, run St.init os = some s ∧ s.blocks = t.blocks ∧ s.inUse = Spec.more t.base t.blocks ∧ s.inUseMax = t.peak ∧
      (s.allocSize + t.base.sum) % 2 ^ 64 = (s.freeSize + t.blocks.sum) % 2 ^ 64 ∧
      (s.allocCount + t.base.length) % 2 ^ 64 = (s.freeCount + t.blocks.length) % 2 ^ 64 ∧
      (s.inUse = t.blocks.sum ↔ t.base.sum = 0) := by
  obtain ⟨s, e, hi⟩ := runSince_inv os (s := St.init) ⟨rfl, by decide, by decide, rfl, rfl, rfl, rfl⟩ h
  refine ⟨s, e, hi.blocks, hi.use, hi.peak, hi.sizes, hi.counts, ?_⟩
  have f1 := hi.fits
  have f2 := hi.fitsB
  unfold M at f1 f2
  rw [hi.use]; unfold Spec.more; split <;> omega

-- cleared with 30 bytes in use and then five more: freeing them all passes nearly 2^64
example : Spec.runSince ⟨[], [], 0⟩ [.alloc 10 true, .alloc 20 true, .clear, .alloc 5 true, .free 0, .free 0, .free 0] =
    some ⟨[], [10, 20], 2 ^ 64 - 5⟩ := by decide

/-- C178: each of the four counters of calls and sizes, after every history: the granted requests, the blocks freed, the bytes
got and the bytes given back since the counters were last cleared, each as a `size_t`. -/
theorem counters_exact (os : List Op) (hf : ∀ o ∈ os, Spec.Fits o) {t : Spec.Tally}
    (h : Spec.runTally ⟨[], 0, 0, 0, 0⟩ os = some t) :
    ∃ s, run St.init os = some s ∧ s.blocks = t.blocks ∧ s.allocCount = t.allocs % 2 ^ 64 ∧ s.freeCount = t.frees % 2 ^ 64 ∧
      (s.allocSize : Int) = t.got % 2 ^ 64 ∧ (s.freeSize : Int) = t.given % 2 ^ 64 := by
  rcases run_tally os (s := St.init) (t := ⟨[], 0, 0, 0, 0⟩) ⟨rfl, by simp, (Nat.zero_mod M).symm, (Nat.zero_mod M).symm, (Int.zero_emod _).symm, (Int.zero_emod _).symm⟩ hf with
    ⟨s, t', e1, e2, hi⟩ | ⟨_, e2⟩
  · rw [h] at e2
    cases e2
    exact ⟨s, e1, hi.blocks, hi.allocs, hi.frees, hi.got, hi.given⟩
  · rw [h] at e2; simp at e2

-- a block of 30 bytes made one of 10 after the counters were cleared: less than nothing was got
example : Spec.runTally ⟨[], 0, 0, 0, 0⟩ [.alloc 30 true, .clear, .realloc 0 10 true, .alloc 3 true, .alloc 9 false, .free 0] =
    some ⟨[3], 1, 1, -17, 10⟩ := by decide

end ELC.Count
