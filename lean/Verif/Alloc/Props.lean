import Verif.Alloc.Lemmas
/-! The properties of allocation, C136-C140. -/
namespace ELC.Alloc
open Spec

/-! ### A program with two arrays -/

/-- Nothing but zeros. -/
def zeros : Nat → Nat := fun _ => 0

/-- Bytes, and something with alignment 32. -/
def byte : Ty := ⟨1, 1⟩
@[inherit_doc byte] def wide : Ty := ⟨32, 32⟩

theorem byte_ok : Ty.Ok byte := ⟨by decide, ⟨0, rfl⟩, by decide⟩
theorem wide_ok : Ty.Ok wide := ⟨by decide, ⟨5, rfl⟩, by decide⟩

/-- After `alloc<wide>(2)`. -/
def one : State :=
  match alloc (State.init zeros) wide 2 (some (64, zeros)) with
  | .ok (_, s) => s
  | .error _ => State.init zeros

theorem one_reach (sys : Sys) : Reach sys one [⟨96, wide, 2⟩] 64 := by
  refine Reach.alloc (s := State.init zeros) (l := []) (m := 0) (t := wide) (n := 2) (g := some (64, zeros)) (p := 96) .init wide_ok
    (by unfold Ty.Fits; decide) ?_ rfl
  intro p fill h
  cases h
  exact ⟨by decide, by decide, by decide, by simp [State.init]⟩

/-- After `alloc<byte>(5)` too. -/
def two : State :=
  match alloc one byte 5 (some (8, zeros)) with
  | .ok (_, s) => s
  | .error _ => one

theorem two_gives : Gives one.heap.blocks (headAlign byte.align) (fullSize (byte.size * 5) byte.align) (some (8, zeros)) := by
  intro p fill h
  cases h
  refine ⟨by decide, by decide, by decide, ?_⟩
  intro b hb
  rw [show one.heap.blocks = [(64, 96)] by decide +kernel, List.mem_singleton] at hb
  have : b = (64, 96) := hb
  subst this
  left
  decide

theorem two_reach (sys : Sys) : Reach sys two [⟨16, byte, 5⟩, ⟨96, wide, 2⟩] 69 :=
  Reach.alloc (s := one) (l := [⟨96, wide, 2⟩]) (m := 64) (t := byte) (n := 5) (g := some (8, zeros)) (p := 16) (one_reach sys) byte_ok
    (by unfold Ty.Fits; decide) two_gives rfl

/-! ### C136 -/

/-- C136: whatever was allocated, written and given back before: a new array lies at an address of its alignment, in memory that
the C library gave, apart from all arrays that the program has, and no byte of those changes.  Missing: sizes that do not fit
into `size_t` (see below). -/
theorem alloc_partial {sys : Sys} {s : State} {l : List Arr} {m : Nat} (h : Reach sys s l m) {t : Ty} {n : Nat} (ht : Ty.Ok t)
    (hn : 0 < n) (hf : Ty.Fits t n) {q : Nat} {fill : Nat → Nat}
    (hg : Gives s.heap.blocks (headAlign t.align) (fullSize (t.size * n) t.align) (some (q, fill))) :
    ∃ p s', alloc s t n (some (q, fill)) = .ok (.ptr p, s') ∧ t.align ∣ p ∧ 0 < p ∧ p + t.size * n ≤ 2 ^ 64 ∧
      s'.heap.inside p (t.size * n) = true ∧
      (∀ b ∈ l, Apart p (t.size * n) b.ptr b.bytes) ∧
      ∀ b ∈ l, ∀ i < b.bytes, s'.heap.mem (b.ptr + i) = s.heap.mem (b.ptr + i) := by
  obtain ⟨s', h1, h2, h3, _⟩ := alloc_step (reach_inv h).1 ht hf hn hg
  have hnew := h2.ok _ List.mem_cons_self
  have hap : ∀ b ∈ l, Apart q (t.size * n + offset t.align) (b.ptr - offset b.ty.align) (b.bytes + offset b.ty.align) := by
    intro b hb
    have := List.rel_of_pairwise_cons h2.apart hb
    simp only [Arr.block, Arr.bytes, Nat.add_sub_cancel] at this
    exact this
  have hlow : offset t.align < q + offset t.align := hnew.low
  have hal := (hg q fill rfl).1
  refine ⟨_, s', h1, ?_, by omega, hnew.top, ?_, ?_, ?_⟩
  · rw [offset_eq]
    exact Nat.dvd_add (dvd_trans (align_dvd ht) hal) (align_dvd ht)
  · unfold Heap.inside
    rw [h2.blocks, List.map_cons, List.any_cons, Bool.or_eq_true]
    left
    rw [decide_eq_true_eq]
    show q + offset t.align - offset t.align ≤ q + offset t.align ∧ _ + t.size * n ≤ q + offset t.align - offset t.align + (t.size * n + offset t.align)
    omega
  · intro b hb
    have := hap b hb
    have := ((reach_inv h).1.ok b hb).low
    unfold Spec.Apart at *
    omega
  · intro b hb i hi
    apply h3
    have := hap b hb
    have := ((reach_inv h).1.ok b hb).low
    unfold Spec.Apart at *
    omega

example : ∃ p s', alloc one byte 5 (some (8, zeros)) = .ok (.ptr p, s') ∧ Apart p 5 96 64 := by
  obtain ⟨p, s', h1, _, _, _, _, h2, _⟩ := alloc_partial (one_reach .posix) byte_ok (by decide) (by unfold Ty.Fits; decide) two_gives
  exact ⟨p, s', h1, h2 ⟨96, wide, 2⟩ (by simp)⟩

/-- C136: no elements, no memory; and when the C library gives nothing, nothing has changed before the next round. -/
theorem alloc_nothing (s : State) (t : Ty) (g : Given) :
    alloc s t 0 g = .ok (.null, s) ∧ ∀ n, 0 < n → alloc s t n none = .ok (.again, s) := by
  refine ⟨rfl, fun n hn => ?_⟩
  unfold alloc
  rw [if_pos (by omega)]
  rfl

/-- C136: there is room for what was asked for exactly if its size, and a bit for the size kept with it, fit into `size_t`; whatever
was allocated, written and given back before. -/
theorem alloc_characterised {sys : Sys} {s : State} {l : List Arr} {m : Nat} (h : Reach sys s l m) {t : Ty} {n : Nat} (ht : Ty.Ok t)
    (hn : 0 < n) {q : Nat} {fill : Nat → Nat}
    (hg : Gives s.heap.blocks (headAlign t.align) (fullSize (wrap (t.size * n)) t.align) (some (q, fill))) :
    (∃ p s', alloc s t n (some (q, fill)) = .ok (.ptr p, s') ∧ s'.heap.inside p (t.size * n) = true) ↔ Ty.Fits t n := by
  constructor
  · rintro ⟨p, s', h1, h2⟩
    by_contra hf
    obtain ⟨hq1, hq2, hq3, hq4⟩ := hg q fill rfl
    unfold alloc alignedAlloc at h1
    rw [if_pos (by omega)] at h1
    simp only [libAlloc, writeWord] at h1
    have hbig : 2 ^ 64 ≤ t.size * n + offset t.align := by
      rw [offset_eq]
      unfold Ty.Fits at hf
      unfold headAlign
      omega
    split at h1
    · simp only [got, bind, Except.bind, pure, Except.pure, Functor.map, Except.map, Except.ok.injEq, Prod.mk.injEq] at h1
      obtain ⟨e1, e2⟩ := h1
      injection e1 with e1
      subst e1 e2
      rw [Heap.inside, List.any_eq_true] at h2
      obtain ⟨b, hb, hin⟩ := h2
      rw [decide_eq_true_eq] at hin
      rcases List.mem_cons.1 hb with rfl | hb
      · dsimp only at hin; omega
      · have hi := (reach_inv h).1
        rw [hi.blocks] at hb
        obtain ⟨c, hc, rfl⟩ := List.mem_map.1 hb
        have := (hi.ok c hc).top
        have := (hi.ok c hc).low
        unfold Arr.block at hin
        dsimp only at hin
        omega
    · simp [bind, Except.bind, Functor.map, Except.map] at h1
  · intro hf
    rw [wrap_eq hf] at hg
    obtain ⟨p, s', h1, _, _, _, h2, _⟩ := alloc_partial h ht hn hf hg
    exact ⟨p, s', h1, h2⟩

/-- C136: in every history, no two arrays of the program overlap, and each lies in memory that the C library gave. -/
theorem arrays_apart {sys : Sys} {s : State} {l : List Arr} {m : Nat} (h : Reach sys s l m) :
    l.Pairwise (fun b c => Apart b.ptr b.bytes c.ptr c.bytes) ∧ ∀ b ∈ l, s.heap.inside b.ptr b.bytes = true := by
  have hi := (reach_inv h).1
  constructor
  · refine hi.apart.imp_of_mem (fun {b c} hb hc hr => ?_)
    have := (hi.ok b hb).low
    have := (hi.ok c hc).low
    unfold Spec.Apart Arr.block at *
    dsimp only at hr
    omega
  · intro b hb
    unfold Heap.inside
    rw [List.any_eq_true]
    have := (hi.ok b hb).low
    refine ⟨b.block, by rw [hi.blocks]; exact List.mem_map_of_mem hb, ?_⟩
    unfold Arr.block
    simp only [decide_eq_true_eq]
    omega

example : [(⟨16, byte, 5⟩ : Arr), ⟨96, wide, 2⟩].Pairwise fun b c => Apart b.ptr b.bytes c.ptr c.bytes :=
  (arrays_apart (two_reach .posix)).1

/-- C136 is false when the number of bytes does not fit into `size_t`: 2^61 + 1 elements of 8 bytes are given room for one. -/
theorem alloc_count_refuted :
    Gives (State.init zeros).heap.blocks (headAlign 8) (fullSize (wrap (8 * (2 ^ 61 + 1))) 8) (some (16, zeros)) ∧
    ∃ s', alloc (State.init zeros) ⟨8, 8⟩ (2 ^ 61 + 1) (some (16, zeros)) = .ok (.ptr 24, s') ∧
      s'.heap.inside 24 8 = true ∧ s'.heap.inside 32 8 = false ∧ sizeOf s' ⟨8, 8⟩ (some 24) = .ok 1 := by
  refine ⟨?_, _, rfl, by decide +kernel, by decide +kernel, by rfl⟩
  intro p fill h
  cases h
  exact ⟨by decide, by decide, by decide, by simp [State.init]⟩

/-- C136 is false when the bytes fit but not the size kept in front of them: the C library is asked for 7 bytes, and 8 are
written. -/
theorem alloc_size_refuted :
    fullSize (2 ^ 64 - 1) 1 = 7 ∧ Gives (State.init zeros).heap.blocks (headAlign 1) 7 (some (16, zeros)) ∧
    alloc (State.init zeros) byte (2 ^ 64 - 1) (some (16, zeros)) = .error .outside := by
  have e : fullSize (wrap (1 * (2 ^ 64 - 1))) 1 = 7 := by decide +kernel
  refine ⟨by decide +kernel, ?_, ?_⟩
  · intro p fill h
    cases h
    exact ⟨by decide, by decide, by decide, by simp [State.init]⟩
  · unfold alloc alignedAlloc
    rw [if_pos (by decide)]
    simp only [byte, libAlloc, e]
    unfold writeWord
    rw [if_neg (by simp [Heap.inside, State.init])]
    rfl

/-! ### C137 -/

/-- C137: in every history, `get_size_of_alloc` tells the number of elements asked for last.  Missing: sizes that do not fit into
`size_t`. -/
theorem size_partial {sys : Sys} {s : State} {l : List Arr} {m : Nat} (h : Reach sys s l m) {b : Arr} (hb : b ∈ l) :
    sizeOf s b.ty (some b.ptr) = .ok b.n := by
  have hi := (reach_inv h).1
  show (fun x => x / b.ty.size) <$> getSize s b.ptr b.ty.align = _
  rw [hi.getSize hb]
  show Except.ok (b.bytes / b.ty.size) = _
  unfold Arr.bytes
  rw [Nat.mul_div_cancel_left _ (hi.ok b hb).ty.1]

example : sizeOf two wide (some 96) = .ok 2 := size_partial (two_reach .posix) (b := ⟨96, wide, 2⟩) (by simp)

/-- C137: the null pointer has no elements. -/
theorem size_null (s : State) (t : Ty) : sizeOf s t none = .ok 0 := rfl

/-- C137: `copy_alloc` asks for as many elements as the array has. -/
theorem copy_alloc_partial {sys : Sys} {s : State} {l : List Arr} {m : Nat} (h : Reach sys s l m) {b : Arr} (hb : b ∈ l) (g : Given) :
    copyAlloc s b.ty (some b.ptr) g = alloc s b.ty b.n g ∧ copyAlloc s b.ty none g = .ok (.null, s) := by
  refine ⟨?_, rfl⟩
  unfold copyAlloc
  rw [size_partial h hb]
  rfl

example : copyAlloc two wide (some 96) none = .ok (.again, two) :=
  (copy_alloc_partial (two_reach .posix) (b := ⟨96, wide, 2⟩) (by simp) none).1

/-- C137, what is told of an array of any number of elements, whether the bytes fit into `size_t` or not. -/
theorem size_characterised {s s' : State} {t : Ty} {n p : Nat} {g : Given} (ha : alloc s t n g = .ok (.ptr p, s')) :
    sizeOf s' t (some p) = .ok (t.size * n % 2 ^ 64 / t.size) := by
  unfold alloc at ha
  by_cases hn : n ≠ 0
  · rw [if_pos hn] at ha
    unfold alignedAlloc libAlloc at ha
    match g with
    | none => simp [got, Functor.map, Except.map] at ha
    | some (q, fill) =>
      simp only [writeWord] at ha
      split at ha
      · rename_i hi
        cases ha
        show (fun x => x / t.size) <$> readWord _ (q + offset t.align - offset t.align) = _
        rw [Nat.add_sub_cancel]
        unfold readWord
        have hi' : ∀ m, Heap.inside ⟨(q, fullSize (wrap (t.size * n)) t.align) :: s.heap.blocks, m⟩ q 8 = true := fun _ => hi
        rw [if_pos (hi' _)]
        exact congrArg (fun k => Except.ok (k / t.size)) (readN_write (Nat.mod_lt _ (by norm_num)))
      · cases ha
  · rw [if_neg hn] at ha
    cases ha

/-- C137 is false as soon as the bytes asked for do not fit into `size_t`: fewer elements are told than were asked for. -/
theorem size_refuted {s s' : State} {t : Ty} {n p : Nat} {g : Given} (ht : 0 < t.size) (hbig : 2 ^ 64 ≤ t.size * n)
    (ha : alloc s t n g = .ok (.ptr p, s')) : ∃ k, sizeOf s' t (some p) = .ok k ∧ k < n := by
  refine ⟨_, size_characterised ha, ?_⟩
  rw [Nat.div_lt_iff_lt_mul ht, Nat.mul_comm n]
  exact (Nat.mod_lt _ (by norm_num)).trans_le hbig

example : ∃ s', alloc (State.init zeros) ⟨8, 8⟩ (2 ^ 61 + 1) (some (16, zeros)) = .ok (.ptr 24, s') ∧ 2 ^ 64 ≤ 8 * (2 ^ 61 + 1) :=
  ⟨_, rfl, by decide⟩

/-! ### C138 -/

/-- C138: `realloc` keeps what is in the array, as far as it goes, gives memory apart from all other arrays, and changes no byte
of those.  The new address has the alignment of the type on Windows, and elsewhere if that is at most 16.  Missing: larger
alignments elsewhere. -/
theorem realloc_partial {sys : Sys} {s : State} {l : List Arr} {m : Nat} (h : Reach sys s l m) {b : Arr} (hb : b ∈ l) {n : Nat}
    (hn : 0 < n) (hf : Ty.Fits b.ty n) {q : Nat} {fill : Nat → Nat}
    (hg : Gives (s.heap.blocks.filter fun x => x.1 ≠ b.ptr - offset b.ty.align) (sys.reallocAlign (headAlign b.ty.align))
      (fullSize (b.ty.size * n) b.ty.align) (some (q, fill))) :
    ∃ p s', realloc s b.ty (some b.ptr) n (some (q, fill)) = .ok (.ptr p, s') ∧
      (∀ i, i < b.ty.size * b.n → i < b.ty.size * n → s'.heap.mem (p + i) = s.heap.mem (b.ptr + i)) ∧
      0 < p ∧ s'.heap.inside p (b.ty.size * n) = true ∧
      (∀ c ∈ l, c.ptr ≠ b.ptr → Apart p (b.ty.size * n) c.ptr c.bytes ∧
        ∀ i < c.bytes, s'.heap.mem (c.ptr + i) = s.heap.mem (c.ptr + i)) ∧
      (sys = .windows ∨ b.ty.align ≤ 16 → b.ty.align ∣ p) := by
  have hi := (reach_inv h).1
  obtain ⟨s', h1, h2, h3, h4, _⟩ := realloc_step hi hb hf hn hg
  have ht := (hi.ok b hb).ty
  have hnew := h2.ok _ List.mem_cons_self
  have hlow : offset b.ty.align < q + offset b.ty.align := hnew.low
  have hal := (hg q fill rfl).1
  refine ⟨_, s', h1, h4, by omega, ?_, ?_, ?_⟩
  · unfold Heap.inside
    rw [h2.blocks, List.map_cons, List.any_cons, Bool.or_eq_true]
    left
    rw [decide_eq_true_eq]
    show q + offset b.ty.align - offset b.ty.align ≤ q + offset b.ty.align ∧ _ + b.ty.size * n ≤ q + offset b.ty.align - offset b.ty.align + (b.ty.size * n + offset b.ty.align)
    omega
  · intro c hc hne
    have hmem : c ∈ l.filter fun x => x.ptr ≠ b.ptr := List.mem_filter.2 ⟨hc, by simpa using hne⟩
    have := List.rel_of_pairwise_cons h2.apart hmem
    simp only [Arr.block, Arr.bytes, Nat.add_sub_cancel] at this
    have hl := (hi.ok c hc).low
    refine ⟨?_, fun i hi' => h3 _ ?_⟩
    · unfold Spec.Apart Arr.bytes at *
      omega
    · unfold Spec.Apart Arr.bytes at *
      omega
  · intro hs
    rw [offset_eq]
    refine Nat.dvd_add ?_ (align_dvd ht)
    cases sys with
    | windows => exact dvd_trans (align_dvd ht) hal
    | posix =>
      have h16 : b.ty.align ≤ 16 := hs.resolve_left (by simp)
      obtain ⟨_, ⟨k, hk⟩, _⟩ := ht
      have : k ≤ 4 := by
        by_contra hc
        have : 2 ^ 5 ≤ 2 ^ k := Nat.pow_le_pow_right (by decide) (by omega)
        omega
      rw [hk]
      exact dvd_trans (pow_dvd_pow 2 this) hal

theorem one_regives : Gives (one.heap.blocks.filter fun x => x.1 ≠ 96 - offset wide.align) (Sys.posix.reallocAlign (headAlign wide.align))
    (fullSize (wide.size * 1) wide.align) (some (208, zeros)) := by
  intro p fill h
  cases h
  refine ⟨by decide, by decide, by decide, ?_⟩
  intro b hb
  have : ((one.heap.blocks.filter fun x => x.1 ≠ 96 - offset wide.align)) = [] := by decide +kernel
  rw [this] at hb
  simp at hb

example : ∃ p s', realloc one wide (some 96) 1 (some (208, zeros)) = .ok (.ptr p, s') ∧
    ∀ i, i < 64 → i < 32 → s'.heap.mem (p + i) = one.heap.mem (96 + i) := by
  obtain ⟨p, s', h1, h2, _⟩ := realloc_partial (one_reach .posix) (b := ⟨96, wide, 2⟩) (by simp) (n := 1) (by decide)
    (by unfold Ty.Fits; decide) one_regives
  exact ⟨p, s', h1, h2⟩

/-- C138 is false for alignments above 16 except on Windows: what `::std::realloc` may give, and what comes of it. -/
theorem realloc_align_refuted : Reach .posix one [⟨96, wide, 2⟩] 64 ∧
    Gives (one.heap.blocks.filter fun x => x.1 ≠ 96 - offset wide.align) (Sys.posix.reallocAlign (headAlign wide.align))
      (fullSize (wide.size * 1) wide.align) (some (208, zeros)) ∧
    ∃ s', realloc one wide (some 96) 1 (some (208, zeros)) = .ok (.ptr 240, s') ∧ ¬ wide.align ∣ 240 :=
  ⟨one_reach _, one_regives, _, rfl, by decide⟩

/-- C138: every array in every history has the alignment of its type: on Windows, and elsewhere if that is at most 16.  Missing:
larger alignments elsewhere. -/
theorem aligned_partial {sys : Sys} {s : State} {l : List Arr} {m : Nat} (h : Reach sys s l m) :
    ∀ b ∈ l, sys = .windows ∨ b.ty.align ≤ 16 → b.ty.align ∣ b.ptr := by
  induction h with
  | init => simp
  | @alloc s l m t n g p s' hr ht hf hg ha ih =>
    intro b hb hs
    rcases List.mem_cons.1 hb with rfl | hb
    · obtain ⟨hn, q, fill, rfl⟩ := alloc_ptr ha
      obtain ⟨p', s'', h1, h2, _⟩ := alloc_partial hr ht hn hf hg
      rw [h1] at ha
      cases ha
      exact h2
    · exact ih b hb hs
  | @realloc s l m c n g p s' hr hc hf hg ha ih =>
    intro b hb hs
    rcases List.mem_cons.1 hb with rfl | hb
    · obtain ⟨hn, q, fill, rfl⟩ := realloc_ptr (reach_inv hr).1 hc ha
      obtain ⟨p', s'', h1, _, _, _, _, h2⟩ := realloc_partial hr hc hn hf hg
      rw [h1] at ha
      cases ha
      exact h2 hs
    · exact ih b (List.mem_filter.1 hb).1 hs
  | @free s l m c s' hr hc ha ih => exact fun b hb hs => ih b (List.mem_filter.1 hb).1 hs
  | @write s l m c i v hr hc hi ih => exact ih

example : (1 : Nat) ∣ 16 := aligned_partial (two_reach .posix) ⟨16, byte, 5⟩ (by simp) (.inr (by decide))

/-- C138 for shrinking "in place" is false: nothing keeps the C library from moving an array that gets shorter. -/
theorem realloc_in_place_refuted : Reach .posix one [⟨96, wide, 2⟩] 64 ∧
    Gives (one.heap.blocks.filter fun x => x.1 ≠ 96 - offset wide.align) (Sys.posix.reallocAlign (headAlign wide.align))
      (fullSize (wide.size * 1) wide.align) (some (208, zeros)) ∧
    ∃ p s', realloc one wide (some 96) 1 (some (208, zeros)) = .ok (.ptr p, s') ∧ p ≠ 96 :=
  ⟨one_reach _, one_regives, _, _, rfl, by decide⟩

/-- C138: when the C library gives nothing, the array is still there and nothing has changed. -/
theorem realloc_failed {sys : Sys} {s : State} {l : List Arr} {m : Nat} (h : Reach sys s l m) {b : Arr} (hb : b ∈ l) {n : Nat}
    (hn : 0 < n) : realloc s b.ty (some b.ptr) n none = .ok (.again, s) := by
  have hi := (reach_inv h).1
  unfold realloc reallocBytes
  rw [if_pos (by omega)]
  simp only [hi.getSize hb, libRealloc, hi.find hb]
  rfl

example : realloc two wide (some 96) 7 none = .ok (.again, two) :=
  realloc_failed (two_reach .posix) (b := ⟨96, wide, 2⟩) (by simp) (by decide)

/-- C138: `realloc` of the null pointer allocates; `realloc` to no elements gives back, and the pointer becomes null. -/
theorem realloc_ends (s : State) (t : Ty) (n : Nat) (g : Given) :
    (0 < n → realloc s t none n g = alloc s t n g) ∧
    (∀ p s', free s t p = .ok s' → realloc s t p 0 g = .ok (.null, s')) ∧ realloc s t none 0 g = .ok (.null, s) := by
  refine ⟨fun hn => ?_, fun p s' h => ?_, rfl⟩
  · unfold realloc
    rw [if_pos (by omega)]
  · unfold realloc
    rw [if_neg (by simp), h]
    rfl

/-! ### C139 -/

/-- C139: in every history, every array can be given back; the other arrays are as before, and the C library has one block
less. -/
theorem free_correct {sys : Sys} {s : State} {l : List Arr} {m : Nat} (h : Reach sys s l m) {b : Arr} (hb : b ∈ l) :
    ∃ s', free s b.ty (some b.ptr) = .ok s' ∧ s'.heap.blocks.length + 1 = s.heap.blocks.length ∧
      s'.heap.inside b.ptr 1 = false ∧
      ∀ c ∈ l, c.ptr ≠ b.ptr → s'.heap.inside c.ptr c.bytes = true ∧
        ∀ i < c.bytes, s'.heap.mem (c.ptr + i) = s.heap.mem (c.ptr + i) := by
  have hi := (reach_inv h).1
  obtain ⟨s', h1, h2, h3, _⟩ := free_step hi hb
  refine ⟨s', h1, ?_, ?_, ?_⟩
  · rw [h2.blocks, hi.blocks, List.length_map, List.length_map]
    exact (hi.filter_length hb).1
  · unfold Heap.inside
    rw [h2.blocks, Bool.eq_false_iff, Ne, List.any_eq_true]
    rintro ⟨x, hx, hin⟩
    obtain ⟨c, hc, rfl⟩ := List.mem_map.1 hx
    obtain ⟨hc, hne⟩ := List.mem_filter.1 hc
    have hne' : c.ptr ≠ b.ptr := by simpa using hne
    apply hne'
    have hl := (hi.ok b hb).low
    have hp := (hi.ok b hb).bytes_pos
    have := hi.eq_of hb hc (by
      rw [decide_eq_true_eq] at hin
      unfold Spec.Apart Arr.block at *
      dsimp only at *
      omega)
    rw [this]
  · intro c hc hne
    have hmem : c ∈ l.filter fun x => x.ptr ≠ b.ptr := List.mem_filter.2 ⟨hc, by simpa using hne⟩
    exact ⟨(arrays_apart (Reach.free h hb h1)).2 c hmem, fun i _ => by rw [h3]⟩

example : ∃ s', free two byte (some 16) = .ok s' ∧ s'.heap.blocks.length + 1 = two.heap.blocks.length := by
  obtain ⟨s', h1, h2, _⟩ := free_correct (two_reach .posix) (b := ⟨16, byte, 5⟩) (by simp)
  exact ⟨s', h1, h2⟩

/-- C139: the C library has as many blocks as the program has arrays; so when every array was given back, every block was. -/
theorem no_leaks {sys : Sys} {s : State} {l : List Arr} {m : Nat} (h : Reach sys s l m) :
    s.heap.blocks.length = l.length ∧ (l = [] → s.heap.blocks = []) ∧
      (s.heap.blocks.map Prod.snd).sum = (l.map fun b => b.bytes + max b.ty.align 8).sum := by
  have hi := (reach_inv h).1
  refine ⟨by rw [hi.blocks, List.length_map], fun hl => by rw [hi.blocks, hl]; rfl, ?_⟩
  rw [hi.blocks, List.map_map]
  congr 1
  apply List.map_congr_left
  intro b _
  show b.bytes + offset b.ty.align = _
  rw [offset_eq]
  rfl

example : two.heap.blocks.length = 2 := (no_leaks (two_reach .posix)).1

/-! ### C140 -/

/-- C140: in every history, the counters say how many bytes the arrays have now, how many they had at most, and how many arrays
and bytes were given and given back (modulo 2^64). -/
theorem counts_correct {sys : Sys} {s : State} {l : List Arr} {m : Nat} (h : Reach sys s l m) :
    s.counts.inUse = total l ∧ s.counts.inUseMax = m ∧
      s.counts.allocs = (s.counts.frees + l.length) % 2 ^ 64 ∧
      s.counts.allocSize = (s.counts.freeSize + total l) % 2 ^ 64 := by
  obtain ⟨hi, ⟨c1, c2, c3, c4⟩, _⟩ := reach_inv h
  exact ⟨by rw [c3]; exact Nat.mod_eq_of_lt hi.total_lt, c4, c1, c2⟩

example : two.counts.inUse = 69 := (counts_correct (two_reach .posix)).1

/-- C140: what is in use is never more than the peak, and never reaches 2^64. -/
theorem counts_bounded {sys : Sys} {s : State} {l : List Arr} {m : Nat} (h : Reach sys s l m) :
    s.counts.inUse ≤ s.counts.inUseMax ∧ total l < 2 ^ 64 := by
  have h1 := counts_correct h
  have h2 := (reach_inv h)
  refine ⟨by rw [h1.1, h1.2.1]; exact h2.2.2, h2.1.total_lt⟩

example : total [(⟨16, byte, 5⟩ : Arr), ⟨96, wide, 2⟩] < 2 ^ 64 := (counts_bounded (two_reach .posix)).2

end ELC.Alloc
