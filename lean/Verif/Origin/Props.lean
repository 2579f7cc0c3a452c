import Verif.Origin.Lemmas
/-! Properties of the places allocations come from. -/
namespace ELC.Origin
open Spec (place)

/-! ### C170: an allocation is noted with the place of the operation -/

/-- C170: the lines noted are those of the outermost operations, in every history. -/
theorem lines_correct (os : List Op) {t : Spec.State} (h : Spec.run ⟨[], []⟩ os = some t) :
    ∃ s, run St.init os = some s ∧ s.blocks.map (·.2) = t.places.map fun o => (o.map (·.line)).getD 0 := by
  obtain ⟨s, e, hi⟩ := run_inv os inv_init h
  exact ⟨s, e, hi.lines⟩

/-- C170, if every allocation belongs to an operation whose place was found: file and line passed to the debug library are
those of the outermost operation.  What is missing: allocations outside of operations (`file_refuted`). -/
theorem file_partial (os : List Op) (k : Bool) {t : Spec.State} (h : Spec.run ⟨[], []⟩ (os ++ [.alloc k]) = some t)
    (hall : ∀ p ∈ t.places, p ≠ none) :
    ∃ s b l, run St.init (os ++ [.alloc k]) = some s ∧ s.blocks.head? = some b ∧ t.places.head? = some (some l) ∧
      report s b = some l.file ∧ b.2 = l.line := by
  obtain ⟨s, e, hi⟩ := run_inv _ inv_init h
  rw [spec_run_append] at h
  cases h1 : Spec.run ⟨[], []⟩ os with
  | none => rw [h1] at h; simp at h
  | some t1 =>
    rw [h1] at h
    simp only [Option.bind_some, Spec.run, Spec.step, Option.some.injEq] at h
    subst h
    obtain ⟨s1, e1, hi1⟩ := run_inv _ inv_init h1
    have hc := run_clean os inv_init (Or.inl rfl) h1 e1 fun p hp => hall p (List.mem_cons_of_mem _ hp)
    have hp := hall (place t1.ops) (by simp)
    cases hl : place t1.ops with
    | none => exact absurd hl hp
    | some l =>
      rw [run_append, e1] at e
      simp only [Option.bind_some, run, step, Option.some.injEq] at e
      subst e
      have hf : s1.frame = some l := by rw [hi1.frame, hl]
      have hll : (line (file k s1)).line = l.line := by
        rw [line_line (by rw [file_line, file_frame]; exact hi1.line), file_frame, hf]; rfl
      refine ⟨_, _, l, by rw [run_append, e1]; rfl, rfl, rfl, ?_, hll⟩
      unfold report
      dsimp only
      rw [line_ptr, line_buf, file_ptr hi1.ptr, if_pos rfl, line_cache, file_clean hc hf]

-- an operation inside another one
example : ∃ t, Spec.run ⟨[], []⟩ ([.enter (some ⟨[1], 10⟩), .enter (some ⟨[2], 20⟩)] ++ [.alloc false]) = some t ∧
    t.places = [some ⟨[1], 10⟩] := ⟨_, rfl, rfl⟩

/-- C170 is false of the program: after an allocation outside of every operation the empty name stays, and the next
operation is noted with it. -/
theorem file_refuted (l : Loc) (h : l.file ≠ []) : ∃ s b, run St.init [.alloc true, .enter (some l), .alloc true] = some s ∧
    s.blocks.head? = some b ∧ report s b = some [] ∧ report s b ≠ some l.file ∧ b.2 = l.line := by
  refine ⟨_, _, rfl, rfl, rfl, ?_, rfl⟩
  intro hc
  have : ([] : List Nat) = l.file := Option.some.inj hc
  exact h this.symm

/-! ### C171: the report of a block names the place it comes from -/

/-- C171, as long as nothing else is allocated: what is noted stays readable.  What is missing: `report_refuted`. -/
theorem report_quiet_partial (os qs : List Op) {s s' : St} {b : Option Nat × Nat} {f : List Nat}
    (h : run St.init os = some s) (hb : b ∈ s.blocks) (hr : report s b = some f) (hq : ∀ o ∈ qs, ∀ k, o ≠ .alloc k)
    (h' : run St.init (os ++ qs) = some s') : b ∈ s'.blocks ∧ report s' b = some f := by
  rw [run_append, h, Option.bind_some] at h'
  obtain ⟨g1, g2, g3⟩ := run_quiet qs h' hq
  refine ⟨by rw [g3]; exact hb, ?_⟩
  unfold report at hr ⊢
  rw [g1, g2]
  exact hr

/-- C171, as long as the outermost operation goes on: what it noted stays readable, whatever it allocates. -/
theorem report_operation_partial (os qs : List Op) (k : Bool) {s s' : St} {t : Spec.State} {b : Option Nat × Nat} {f : List Nat}
    (ht : Spec.run ⟨[], []⟩ (os ++ [.alloc k]) = some t) (h : run St.init (os ++ [.alloc k]) = some s) (hb : b ∈ s.blocks)
    (hr : report s b = some f) (hp : place t.ops ≠ none) (hg : Spec.goesOn t qs)
    (h' : run St.init (os ++ [.alloc k] ++ qs) = some s') : b ∈ s'.blocks ∧ report s' b = some f := by
  obtain ⟨s0, e, hi⟩ := run_inv _ inv_init ht
  rw [h] at e
  injection e with e
  subst e
  have hptr : s.filePtr = some s.buf := by
    rw [run_append] at h
    cases e1 : run St.init os with
    | none => rw [e1] at h; simp at h
    | some s1 =>
      rw [spec_run_append] at ht
      cases et : Spec.run ⟨[], []⟩ os with
      | none => rw [et] at ht; simp at ht
      | some t1 =>
        obtain ⟨s1', e1', hi1⟩ := run_inv _ inv_init et
        rw [e1] at e1'
        injection e1' with e1'
        subst e1'
        rw [e1] at h
        simp only [Option.bind_some, run, step, Option.some.injEq] at h
        subst h
        dsimp only
        rw [line_ptr, line_buf]
        exact file_ptr hi1.ptr
  rw [run_append, h, Option.bind_some] at h'
  obtain ⟨g1, g2, g3⟩ := run_goesOn qs hi hptr hp hg h'
  refine ⟨g3.subset hb, ?_⟩
  unfold report at hr ⊢
  rw [g1, g2]
  exact hr

/-- C171 is false of the program: after the next operation has allocated something, the block of the first one is reported
with the file of the second one, or its name is read from a buffer that is gone. -/
theorem report_refuted (l₁ l₂ : Loc) : ∃ s b,
    run St.init [.enter (some l₁), .alloc true, .leave, .enter (some l₂), .alloc true, .leave] = some s ∧
    s.blocks.getLast? = some b ∧ report s b = some l₂.file ∧ b.2 = l₁.line ∧
    ∃ s', run St.init [.enter (some l₁), .alloc true, .leave, .enter (some l₂), .alloc false, .leave] = some s' ∧
      s'.blocks.getLast? = some b ∧ report s' b = none := by
  obtain ⟨f1, n1⟩ := l₁
  obtain ⟨f2, n2⟩ := l₂
  by_cases h1 : n1 = 0 <;> by_cases h2 : n2 = 0 <;>
    exact ⟨_, _, rfl, by simp [run, step, file, line, clear, St.init]; rfl, rfl, by simp [run, step, file, line, clear, St.init],
      _, rfl, by simp [run, step, file, line, clear, St.init], by simp [report, run, step, file, line, clear, St.init]⟩

end ELC.Origin
