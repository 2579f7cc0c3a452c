import Verif.Alloc.Spec
import Mathlib.Data.Nat.Basic
import Mathlib.Data.List.Pairwise
import Mathlib.Order.Interval.Finset.Nat
import Mathlib.Tactic.Ring
/-! Lemmas on allocation. -/
namespace ELC.Alloc
open Spec

theorem offset_eq (align : Nat) : offset align = headAlign align := by
  unfold offset
  have h8 : 8 ≤ headAlign align := by unfold headAlign; omega
  rcases Nat.eq_or_lt_of_le h8 with h | h
  · rw [← h]; decide
  · rw [Nat.div_eq_of_lt h, Nat.mod_eq_of_lt h, if_neg (by decide)]; omega

theorem offset_ge (align : Nat) : 8 ≤ offset align := by rw [offset_eq]; unfold headAlign; omega

theorem align_dvd {t : Ty} (h : Ty.Ok t) : t.align ∣ headAlign t.align := by
  obtain ⟨_, ⟨k, hk⟩, _⟩ := h
  unfold headAlign
  rcases Nat.le_total t.align 8 with h | h
  · rw [Nat.max_eq_right h, hk]
    have : k ≤ 3 := by
      by_contra hc
      have : 2 ^ 4 ≤ 2 ^ k := Nat.pow_le_pow_right (by decide) (by omega)
      omega
    exact pow_dvd_pow 2 this
  · rw [Nat.max_eq_left h]

theorem eight_dvd {t : Ty} (h : Ty.Ok t) : 8 ∣ headAlign t.align := by
  obtain ⟨_, ⟨k, hk⟩, _⟩ := h
  unfold headAlign
  rcases Nat.le_total t.align 8 with h | h
  · rw [Nat.max_eq_right h]
  · rw [Nat.max_eq_left h, hk]
    have : 3 ≤ k := by
      by_contra hc
      have : 2 ^ k ≤ 2 ^ 2 := Nat.pow_le_pow_right (by decide) (by omega)
      omega
    exact pow_dvd_pow 2 this

theorem readN_congr {m m' : Nat → Nat} : ∀ {k a}, (∀ x, a ≤ x → x < a + k → m x = m' x) → readN m a k = readN m' a k := by
  intro k
  induction k with
  | zero => intro a _; rfl
  | succ k ih =>
    intro a h
    simp only [readN]
    rw [h a (by omega) (by omega), ih (fun x h1 h2 => h x (by omega) (by omega))]

theorem readN_digits {m : Nat → Nat} : ∀ {k a w}, (∀ i, i < k → m (a + i) = w / 256 ^ i % 256) → readN m a k = w % 256 ^ k := by
  intro k
  induction k with
  | zero => intro a w _; rw [pow_zero, Nat.mod_one]; rfl
  | succ k ih =>
    intro a w h
    simp only [readN]
    have h0 := h 0 (by omega)
    rw [Nat.add_zero, pow_zero, Nat.div_one] at h0
    rw [h0, ih (w := w / 256) (fun i hi => ?_), pow_succ, Nat.mul_comm (256 ^ k), Nat.mod_mul]
    rw [show a + 1 + i = a + (i + 1) by omega, h (i + 1) (by omega), pow_succ, Nat.mul_comm (256 ^ i), Nat.div_div_eq_div_mul]

theorem readN_write {m : Nat → Nat} {a w : Nat} (hw : w < 2 ^ 64) :
    readN (fun x => if a ≤ x ∧ x < a + 8 then w / 256 ^ (x - a) % 256 else m x) a 8 = w := by
  rw [readN_digits (w := w)]
  · exact Nat.mod_eq_of_lt (by rw [show (256 : Nat) ^ 8 = 2 ^ 64 by norm_num]; exact hw)
  · intro i hi
    rw [if_pos ⟨by omega, by omega⟩, show a + i - a = i by omega]

/-- The library's block of an array. -/
def _root_.ELC.Alloc.Spec.Arr.block (b : Arr) : Nat × Nat := (b.ptr - offset b.ty.align, b.bytes + offset b.ty.align)

/-- What holds of every array the program has. -/
structure ArrOk (s : State) (b : Arr) : Prop where
  ty : Ty.Ok b.ty
  fits : Ty.Fits b.ty b.n
  pos : 0 < b.n
  low : offset b.ty.align < b.ptr
  head : readN s.heap.mem (b.ptr - offset b.ty.align) 8 = b.bytes
  al8 : 8 ∣ b.ptr
  top : b.ptr + b.bytes ≤ 2 ^ 64

/-- The invariant. -/
structure Inv (s : State) (l : List Arr) : Prop where
  blocks : s.heap.blocks = l.map Arr.block
  ok : ∀ b ∈ l, ArrOk s b
  apart : l.Pairwise fun b c => Apart b.block.1 b.block.2 c.block.1 c.block.2

theorem ArrOk.bytes_pos {s : State} {b : Arr} (h : ArrOk s b) : 0 < b.bytes := Nat.mul_pos h.ty.1 h.pos

theorem Apart.symm' {a n b m : Nat} (h : Spec.Apart a n b m) : Spec.Apart b m a n := h.symm

theorem Inv.eq_of {s : State} {l : List Arr} (h : Inv s l) {b c : Arr} (hb : b ∈ l) (hc : c ∈ l)
    (hn : ¬ Spec.Apart b.block.1 b.block.2 c.block.1 c.block.2) : b = c := by
  by_contra hne
  have : Std.Symm fun b c : Arr => Spec.Apart b.block.1 b.block.2 c.block.1 c.block.2 := ⟨fun _ _ h => h.symm⟩
  exact hn (h.apart.forall hb hc hne)

theorem Inv.ptr_ne {s : State} {l : List Arr} (h : Inv s l) {b c : Arr} (hb : b ∈ l) (hc : c ∈ l) :
    c.ptr ≠ b.ptr ↔ c.block.1 ≠ b.block.1 := by
  have h1 := (h.ok b hb).bytes_pos
  have h2 := (h.ok c hc).bytes_pos
  have h3 := (h.ok b hb).low
  have h4 := (h.ok c hc).low
  constructor
  · intro hne he
    apply hne
    have : b = c := h.eq_of hb hc (by rw [he]; unfold Spec.Apart Arr.block; dsimp only; have := offset_ge b.ty.align; have := offset_ge c.ty.align; omega)
    rw [this]
  · intro hne he
    apply hne
    have : b = c := h.eq_of hb hc (by unfold Spec.Apart Arr.block; dsimp only; rw [he] at *; omega)
    rw [this]

theorem Inv.filter_blocks {s : State} {l : List Arr} (h : Inv s l) {b : Arr} (hb : b ∈ l) :
    (s.heap.blocks.filter fun x => x.1 ≠ b.ptr - offset b.ty.align) = (l.filter fun x => x.ptr ≠ b.ptr).map Arr.block := by
  rw [h.blocks, List.filter_map]
  congr 1
  apply List.filter_congr
  intro c hc
  simp only [Function.comp, decide_eq_decide]
  exact (h.ptr_ne hb hc).symm

theorem Inv.inside {s : State} {l : List Arr} (h : Inv s l) {b : Arr} (hb : b ∈ l) : s.heap.inside (b.ptr - offset b.ty.align) 8 = true := by
  unfold Heap.inside
  rw [List.any_eq_true]
  refine ⟨b.block, by rw [h.blocks]; exact List.mem_map_of_mem hb, ?_⟩
  have := offset_ge b.ty.align
  unfold Arr.block
  simp only [decide_eq_true_eq]
  omega

theorem Inv.getSize {s : State} {l : List Arr} (h : Inv s l) {b : Arr} (hb : b ∈ l) : getSize s b.ptr b.ty.align = .ok b.bytes := by
  unfold Alloc.getSize readWord
  rw [if_pos (h.inside hb), (h.ok b hb).head]

theorem fullSize_eq {t : Ty} {n : Nat} (h : Ty.Fits t n) : fullSize (t.size * n) t.align = t.size * n + offset t.align := by
  unfold fullSize wrap
  rw [offset_eq]
  exact Nat.mod_eq_of_lt h

theorem wrap_eq {t : Ty} {n : Nat} (h : Ty.Fits t n) : wrap (t.size * n) = t.size * n :=
  Nat.mod_eq_of_lt (Nat.lt_of_le_of_lt (Nat.le_add_right _ _) h)

/-- The memory after giving a block. -/
theorem ArrOk.keep {s s' : State} {b : Arr} (h : ArrOk s b)
    (hm : ∀ x, b.ptr - offset b.ty.align ≤ x → x < b.ptr - offset b.ty.align + 8 → s'.heap.mem x = s.heap.mem x) : ArrOk s' b :=
  { h with head := by rw [readN_congr hm]; exact h.head }

/-- The counters say what is there. -/
structure CountsOk (c : Counts) (l : List Arr) (m : Nat) : Prop where
  num : c.allocs = wrap (c.frees + l.length)
  size : c.allocSize = wrap (c.freeSize + total l)
  inUse : c.inUse = wrap (total l)
  inUseMax : c.inUseMax = m

theorem covered {N : Nat} : ∀ (l : List (Nat × Nat)), (∀ b ∈ l, b.1 + b.2 ≤ N) →
    (l.Pairwise fun b c => Spec.Apart b.1 b.2 c.1 c.2) →
    ((Finset.range N).filter fun x => ∃ b ∈ l, b.1 ≤ x ∧ x < b.1 + b.2).card = (l.map Prod.snd).sum := by
  intro l
  induction l with
  | nil => intro _ _; simp
  | cons b l ih =>
    intro h hp
    rw [List.map_cons, List.sum_cons, ← ih (fun c hc => h c (List.mem_cons_of_mem _ hc)) hp.of_cons]
    have e : ((Finset.range N).filter fun x => ∃ c ∈ b :: l, c.1 ≤ x ∧ x < c.1 + c.2) =
        Finset.Ico b.1 (b.1 + b.2) ∪ ((Finset.range N).filter fun x => ∃ c ∈ l, c.1 ≤ x ∧ x < c.1 + c.2) := by
      ext x
      have hb := h b List.mem_cons_self
      simp only [Finset.mem_filter, Finset.mem_range, Finset.mem_union, Finset.mem_Ico, List.mem_cons, exists_eq_or_imp]
      constructor
      · rintro ⟨h1, h2 | h2⟩
        · exact .inl h2
        · exact .inr ⟨h1, h2⟩
      · rintro (h2 | ⟨h1, h2⟩)
        · exact ⟨by omega, .inl h2⟩
        · exact ⟨h1, .inr h2⟩
    rw [e, Finset.card_union_of_disjoint, Nat.card_Ico]
    · congr 1; omega
    · rw [Finset.disjoint_left]
      intro x hx hy
      simp only [Finset.mem_filter, Finset.mem_range, Finset.mem_Ico] at hx hy
      obtain ⟨_, c, hc, h1, h2⟩ := hy
      have := List.rel_of_pairwise_cons hp hc
      unfold Spec.Apart at this
      omega

theorem Inv.total_le {s : State} {l : List Arr} (h : Inv s l) : (l.map fun b => b.bytes + offset b.ty.align).sum ≤ 2 ^ 64 := by
  have h1 := covered (N := 2 ^ 64) (l.map Arr.block) (fun x hx => by
    obtain ⟨b, hb, rfl⟩ := List.mem_map.1 hx
    have h1 := (h.ok b hb).top
    have h2 := (h.ok b hb).low
    unfold Arr.block
    dsimp only
    omega) (List.pairwise_map.2 h.apart)
  rw [List.map_map] at h1
  have h2 : ((l.map fun b => b.bytes + offset b.ty.align)) = l.map (Prod.snd ∘ Arr.block) := rfl
  rw [h2, ← h1]
  exact le_trans (Finset.card_filter_le _ _) (by rw [Finset.card_range])

theorem Inv.total_lt {s : State} {l : List Arr} (h : Inv s l) : total l < 2 ^ 64 := by
  have h1 := h.total_le
  unfold total
  cases l with
  | nil => decide
  | cons b l =>
    have h2 : ∀ l : List Arr, (l.map Arr.bytes).sum ≤ (l.map fun b => b.bytes + offset b.ty.align).sum := by
      intro l
      induction l with
      | nil => exact le_refl _
      | cons c l ih => simp only [List.map_cons, List.sum_cons]; omega
    have h3 := h2 l
    have h4 := offset_ge b.ty.align
    simp only [List.map_cons, List.sum_cons] at h1 ⊢
    omega

theorem Inv.filter_length {s : State} {l : List Arr} (h : Inv s l) {b : Arr} (hb : b ∈ l) :
    (l.filter fun x => x.ptr ≠ b.ptr).length + 1 = l.length ∧ total (l.filter fun x => x.ptr ≠ b.ptr) + b.bytes = total l := by
  have key : ∀ l : List Arr, l.Nodup → (∀ c ∈ l, c.ptr = b.ptr → c = b) → b ∈ l →
      (l.filter fun x => x.ptr ≠ b.ptr).length + 1 = l.length ∧ total (l.filter fun x => x.ptr ≠ b.ptr) + b.bytes = total l := by
    intro l
    induction l with
    | nil => intro _ _ hb; exact absurd hb (by simp)
    | cons c l ih =>
      intro hn hc hb
      by_cases he : c = b
      · subst he
        have hnot : ∀ x ∈ l, decide (x.ptr ≠ c.ptr) = true := by
          intro x hx
          rw [decide_eq_true_eq]
          intro hp
          rw [hc x (List.mem_cons_of_mem _ hx) hp] at hx
          exact (List.nodup_cons.1 hn).1 hx
        rw [List.filter_cons_of_neg (by simp), List.filter_eq_self.2 hnot]
        simp only [List.length_cons, total, List.map_cons, List.sum_cons]
        exact ⟨trivial, by omega⟩
      · have hb' : b ∈ l := by
          rcases List.mem_cons.1 hb with h | h
          · exact absurd h.symm he
          · exact h
        have hp : c.ptr ≠ b.ptr := fun hp => he (hc c List.mem_cons_self hp)
        have := ih (List.nodup_cons.1 hn).2 (fun x hx => hc x (List.mem_cons_of_mem _ hx)) hb'
        rw [List.filter_cons_of_pos (by simpa using hp)]
        simp only [List.length_cons, total, List.map_cons, List.sum_cons] at this ⊢
        omega
  apply key l _ _ hb
  · have : l.Pairwise fun b c => (Spec.Apart b.block.1 b.block.2 c.block.1 c.block.2 ∧ 0 < b.block.2) :=
      h.apart.imp_of_mem (fun {a c} ha _ hr => ⟨hr, by have := offset_ge a.ty.align; unfold Arr.block; dsimp only; omega⟩)
    exact this.imp (fun {a c} hr he => by
      subst he
      obtain ⟨h1, h2⟩ := hr
      unfold Spec.Apart at h1
      omega)
  · intro c hc hp
    by_contra hne
    have := mt (h.ptr_ne hb hc).2
    exact absurd (h.eq_of hb hc (by
      have h1 := (h.ok b hb).bytes_pos
      have h2 := (h.ok c hc).bytes_pos
      have h3 := (h.ok b hb).low
      have h4 := (h.ok c hc).low
      unfold Spec.Apart Arr.block; dsimp only; omega)).symm hne

theorem Inv.filter {s : State} {l : List Arr} (h : Inv s l) {b : Arr} (hb : b ∈ l) {s' : State}
    (hs : s'.heap.blocks = s.heap.blocks.filter fun x => x.1 ≠ b.ptr - offset b.ty.align)
    (hm : s'.heap.mem = s.heap.mem) : Inv s' (l.filter fun x => x.ptr ≠ b.ptr) where
  blocks := by rw [hs, h.filter_blocks hb]
  ok := fun c hc => (h.ok c (List.mem_filter.1 hc).1).keep (fun x _ _ => by rw [hm])
  apart := h.apart.filter _

/-- A new block beside the others. -/
theorem Inv.cons {s : State} {l : List Arr} (h : Inv s l) {t : Ty} {n q : Nat} (ht : Ty.Ok t) (hf : Ty.Fits t n) (hn : 0 < n)
    (h8 : 8 ∣ q) (hq : 0 < q) (htop : q + (t.size * n + offset t.align) ≤ 2 ^ 64)
    (hap : ∀ b ∈ s.heap.blocks, Spec.Apart q (t.size * n + offset t.align) b.1 b.2) {s' : State}
    (hs : s'.heap.blocks = (q, t.size * n + offset t.align) :: s.heap.blocks)
    (hhead : readN s'.heap.mem q 8 = t.size * n)
    (hm : ∀ x, x < q ∨ q + (t.size * n + offset t.align) ≤ x → s'.heap.mem x = s.heap.mem x) :
    Inv s' (⟨q + offset t.align, t, n⟩ :: l) where
  blocks := by
    rw [hs, h.blocks, List.map_cons]
    simp only [Arr.block, Arr.bytes, Nat.add_sub_cancel]
  ok := by
    intro c hc
    rcases List.mem_cons.1 hc with rfl | hc
    · refine ⟨ht, hf, hn, ?_, ?_, ?_, ?_⟩
      · dsimp only; omega
      · dsimp only
        rw [Nat.add_sub_cancel]
        exact hhead
      · dsimp only
        rw [offset_eq]
        exact Nat.dvd_add h8 (eight_dvd ht)
      · simp only [Arr.bytes]; omega
    · refine (h.ok c hc).keep (fun x h1 h2 => hm x ?_)
      have := hap c.block (by rw [h.blocks]; exact List.mem_map_of_mem hc)
      unfold Spec.Apart Arr.block at this
      have := offset_ge c.ty.align
      dsimp only at *
      omega
  apart := by
    refine List.pairwise_cons.2 ⟨fun c hc => ?_, h.apart⟩
    have := hap c.block (by rw [h.blocks]; exact List.mem_map_of_mem hc)
    simp only [Arr.block, Arr.bytes, Nat.add_sub_cancel] at this ⊢
    exact this

theorem alloc_step {s : State} {l : List Arr} (h : Inv s l) {t : Ty} {n : Nat} (ht : Ty.Ok t) (hf : Ty.Fits t n) (hn : 0 < n)
    {q : Nat} {fill : Nat → Nat}
    (hg : Gives s.heap.blocks (headAlign t.align) (fullSize (t.size * n) t.align) (some (q, fill))) :
    ∃ s', alloc s t n (some (q, fill)) = .ok (.ptr (q + offset t.align), s') ∧ Inv s' (⟨q + offset t.align, t, n⟩ :: l) ∧
      (∀ x, x < q ∨ q + (t.size * n + offset t.align) ≤ x → s'.heap.mem x = s.heap.mem x) ∧
      s'.counts = ({ s.counts with allocs := wrap (s.counts.allocs + 1), allocSize := wrap (s.counts.allocSize + t.size * n) } : Counts).update
        (t.size * n) := by
  obtain ⟨h1, h2, h3, h4⟩ := hg q fill rfl
  rw [fullSize_eq hf] at h3 h4
  have h8 : 8 ∣ q := dvd_trans (eight_dvd ht) h1
  have hoff := offset_ge t.align
  have hlt : t.size * n < 2 ^ 64 := by have := hf; unfold Ty.Fits at this; omega
  unfold alloc alignedAlloc
  rw [if_pos (by omega), wrap_eq hf]
  simp only [libAlloc, fullSize_eq hf]
  have hin : (⟨(q, t.size * n + offset t.align) :: s.heap.blocks,
      fun x => if q ≤ x ∧ x < q + (t.size * n + offset t.align) then fill x else s.heap.mem x⟩ : Heap).inside q 8 = true := by
    unfold Heap.inside
    rw [List.any_cons, Bool.or_eq_true]
    left
    rw [decide_eq_true_eq]
    dsimp only
    omega
  unfold writeWord
  rw [if_pos hin]
  refine ⟨_, rfl, ?_, ?_, rfl⟩
  · refine h.cons ht hf hn h8 h2 h3 h4 rfl (readN_write hlt) (fun x hx => ?_)
    dsimp only
    rw [if_neg (by omega), if_neg (by omega)]
  · intro x hx
    dsimp only
    rw [if_neg (by omega), if_neg (by omega)]

theorem Inv.find {s : State} {l : List Arr} (h : Inv s l) {b : Arr} (hb : b ∈ l) :
    s.heap.blocks.find? (fun x => x.1 == b.ptr - offset b.ty.align) = some b.block := by
  have hex : (s.heap.blocks.find? (fun x => x.1 == b.ptr - offset b.ty.align)).isSome := by
    rw [List.find?_isSome]
    exact ⟨b.block, by rw [h.blocks]; exact List.mem_map_of_mem hb, by simp [Arr.block]⟩
  obtain ⟨x, hx⟩ := Option.isSome_iff_exists.1 hex
  rw [hx]
  have h1 := List.mem_of_find?_eq_some hx
  have h2 := List.find?_some hx
  rw [h.blocks] at h1
  obtain ⟨c, hc, rfl⟩ := List.mem_map.1 h1
  have h3 : c.block.1 = b.block.1 := beq_iff_eq.1 h2
  have h4 : c.ptr = b.ptr := by
    by_contra hne
    exact (h.ptr_ne hb hc).1 hne h3
  have h5 : b = c := h.eq_of hb hc (by
    have h1 := (h.ok b hb).bytes_pos
    have h2 := (h.ok c hc).bytes_pos
    have h3 := (h.ok b hb).low
    have h4 := (h.ok c hc).low
    unfold Spec.Apart Arr.block; dsimp only; omega)
  rw [h5]

theorem free_step {s : State} {l : List Arr} (h : Inv s l) {b : Arr} (hb : b ∈ l) :
    ∃ s', free s b.ty (some b.ptr) = .ok s' ∧ Inv s' (l.filter fun x => x.ptr ≠ b.ptr) ∧ s'.heap.mem = s.heap.mem ∧
      s'.counts = ({ s.counts with frees := wrap (s.counts.frees + 1), freeSize := wrap (s.counts.freeSize + b.bytes) } : Counts).update
        (wrap (2 ^ 64 - wrap b.bytes)) := by
  unfold free freeBytes
  simp only [h.getSize hb]
  have hany : s.heap.blocks.any (fun x => x.1 == b.ptr - offset b.ty.align) = true := by
    rw [List.any_eq_true]
    exact ⟨b.block, by rw [h.blocks]; exact List.mem_map_of_mem hb, by simp [Arr.block]⟩
  unfold libFree
  rw [if_pos hany]
  refine ⟨_, rfl, ?_, rfl, rfl⟩
  exact h.filter hb rfl rfl

theorem realloc_step {s : State} {l : List Arr} (h : Inv s l) {b : Arr} (hb : b ∈ l) {n : Nat} (hf : Ty.Fits b.ty n) (hn : 0 < n)
    {sys : Sys} {q : Nat} {fill : Nat → Nat}
    (hg : Gives (s.heap.blocks.filter fun x => x.1 ≠ b.ptr - offset b.ty.align) (sys.reallocAlign (headAlign b.ty.align))
        (fullSize (b.ty.size * n) b.ty.align) (some (q, fill))) :
    ∃ s', realloc s b.ty (some b.ptr) n (some (q, fill)) = .ok (.ptr (q + offset b.ty.align), s') ∧
      Inv s' (⟨q + offset b.ty.align, b.ty, n⟩ :: l.filter fun x => x.ptr ≠ b.ptr) ∧
      (∀ x, x < q ∨ q + (b.ty.size * n + offset b.ty.align) ≤ x → s'.heap.mem x = s.heap.mem x) ∧
      (∀ i, i < b.bytes → i < b.ty.size * n → s'.heap.mem (q + offset b.ty.align + i) = s.heap.mem (b.ptr + i)) ∧
      s'.counts = ({ s.counts with allocSize := wrap (s.counts.allocSize + wrap (b.ty.size * n + (2 ^ 64 - wrap b.bytes))) } : Counts).update
        (wrap (b.ty.size * n + (2 ^ 64 - wrap b.bytes))) := by
  obtain ⟨h1, h2, h3, h4⟩ := hg q fill rfl
  have ht := (h.ok b hb).ty
  have hlow := (h.ok b hb).low
  rw [fullSize_eq hf] at h3 h4
  have h8 : 8 ∣ q := by
    cases sys with
    | posix => exact dvd_trans (show 8 ∣ 16 by decide) h1
    | windows => exact dvd_trans (eight_dvd ht) h1
  have hoff := offset_ge b.ty.align
  have hlt : b.ty.size * n < 2 ^ 64 := by have := hf; unfold Ty.Fits at this; omega
  unfold realloc reallocBytes
  rw [if_pos (by omega), wrap_eq hf]
  simp only [h.getSize hb]
  simp only [libRealloc, h.find hb, fullSize_eq hf]
  simp only [bind, Except.bind, pure, Except.pure]
  generalize hmem : (fun x => if q ≤ x ∧ x < q + (b.ty.size * n + offset b.ty.align) then
    if x < q + min b.block.2 (b.ty.size * n + offset b.ty.align) then s.heap.mem (b.ptr - offset b.ty.align + (x - q)) else fill x
    else s.heap.mem x) = mem
  have hin : (⟨(q, b.ty.size * n + offset b.ty.align) :: s.heap.blocks.filter fun x => x.1 ≠ b.ptr - offset b.ty.align, mem⟩ : Heap).inside q 8 = true := by
    unfold Heap.inside
    rw [List.any_cons, Bool.or_eq_true]
    left
    rw [decide_eq_true_eq]
    dsimp only
    omega
  unfold writeWord
  rw [if_pos hin]
  refine ⟨_, rfl, ?_, ?_, ?_, rfl⟩
  · refine (h.filter hb (s' := ⟨⟨s.heap.blocks.filter fun x => x.1 ≠ b.ptr - offset b.ty.align, s.heap.mem⟩, s.counts⟩) rfl rfl).cons
      ht hf hn h8 h2 h3 h4 rfl (readN_write hlt) (fun x hx => ?_)
    dsimp only
    rw [if_neg (by omega), ← hmem]
    dsimp only
    rw [if_neg (by omega)]
  · intro x hx
    dsimp only
    rw [if_neg (by omega), ← hmem]
    dsimp only
    rw [if_neg (by omega)]
  · intro i hi hi'
    dsimp only
    rw [if_neg (by omega), ← hmem]
    dsimp only
    rw [if_pos (by omega), if_pos (by unfold Arr.block; dsimp only; omega)]
    congr 1
    omega

theorem Inv.write {s : State} {l : List Arr} (h : Inv s l) {b : Arr} (hb : b ∈ l) {i : Nat} (hi : i < b.bytes) (v : Nat) :
    Inv { s with heap := s.heap.write (b.ptr + i) v } l where
  blocks := h.blocks
  ok := fun c hc => (h.ok c hc).keep (fun x h1 h2 => by
    have hl := (h.ok c hc).low
    have hl' := (h.ok b hb).low
    have ho := offset_ge c.ty.align
    unfold Heap.write
    dsimp only
    rw [if_neg]
    intro hx
    by_cases he : b = c
    · subst he; omega
    · apply he
      apply h.eq_of hb hc
      unfold Spec.Apart Arr.block
      dsimp only
      omega)
  apart := h.apart

theorem alloc_ptr {s : State} {t : Ty} {n p : Nat} {g : Given} {s' : State} (h : alloc s t n g = .ok (.ptr p, s')) :
    0 < n ∧ ∃ q fill, g = some (q, fill) := by
  unfold alloc at h
  by_cases hn : n = 0
  · rw [if_neg (by simpa using hn)] at h; cases h
  · refine ⟨by omega, ?_⟩
    cases g with
    | none => rw [if_pos hn] at h; cases h
    | some g => exact ⟨g.1, g.2, rfl⟩

theorem realloc_ptr {s : State} {l : List Arr} (hi : Inv s l) {b : Arr} (hb : b ∈ l) {n p : Nat} {g : Given} {s' : State}
    (h : realloc s b.ty (some b.ptr) n g = .ok (.ptr p, s')) : 0 < n ∧ ∃ q fill, g = some (q, fill) := by
  unfold realloc at h
  by_cases hn : n = 0
  · rw [if_neg (by simpa using hn)] at h
    cases hf : free s b.ty (some b.ptr) <;> rw [hf] at h <;> cases h
  · refine ⟨by omega, ?_⟩
    cases g with
    | none =>
      rw [if_pos hn] at h
      unfold reallocBytes at h
      simp only [hi.getSize hb, libRealloc, hi.find hb] at h
      cases h
    | some g => exact ⟨g.1, g.2, rfl⟩

theorem CountsOk.init : CountsOk ⟨0, 0, 0, 0, 0, 0⟩ [] 0 := ⟨rfl, rfl, rfl, rfl⟩

theorem CountsOk.alloc {c : Counts} {l l' : List Arr} {m k : Nat} (h : CountsOk c l m) (hl : l'.length = l.length + 1)
    (ht : total l' = total l + k) (hlt : total l' < 2 ^ 64) :
    CountsOk (({ c with allocs := wrap (c.allocs + 1), allocSize := wrap (c.allocSize + k) } : Counts).update k) l' (max m (total l')) := by
  obtain ⟨c1, c2, c3, c4⟩ := h
  have e : wrap (c.inUse + k) = total l' := by rw [c3, ht]; unfold wrap; omega
  refine ⟨?_, ?_, ?_, ?_⟩
  · show wrap (c.allocs + 1) = wrap (c.frees + l'.length)
    rw [c1, hl]; unfold wrap; omega
  · show wrap (c.allocSize + k) = wrap (c.freeSize + total l')
    rw [c2, ht]; unfold wrap; omega
  · show wrap (c.inUse + k) = wrap (total l')
    rw [e]; unfold wrap; omega
  · show max c.inUseMax (wrap (c.inUse + k)) = _
    rw [e, c4]

theorem CountsOk.realloc {c : Counts} {l l' : List Arr} {m k o : Nat} (h : CountsOk c l m) (hl : l'.length = l.length)
    (ht : total l' + o = total l + k) (hlt : total l' < 2 ^ 64) :
    CountsOk (({ c with allocSize := wrap (c.allocSize + wrap (k + (2 ^ 64 - wrap o))) } : Counts).update (wrap (k + (2 ^ 64 - wrap o))))
      l' (max m (total l')) := by
  obtain ⟨c1, c2, c3, c4⟩ := h
  have e : wrap (c.inUse + wrap (k + (2 ^ 64 - wrap o))) = total l' := by rw [c3]; unfold wrap; omega
  refine ⟨?_, ?_, ?_, ?_⟩
  · show c.allocs = wrap (c.frees + l'.length)
    rw [c1, hl]
  · show wrap (c.allocSize + wrap (k + (2 ^ 64 - wrap o))) = wrap (c.freeSize + total l')
    rw [c2]; unfold wrap; omega
  · show wrap (c.inUse + wrap (k + (2 ^ 64 - wrap o))) = wrap (total l')
    rw [e]; unfold wrap; omega
  · show max c.inUseMax (wrap (c.inUse + wrap (k + (2 ^ 64 - wrap o)))) = _
    rw [e, c4]

theorem CountsOk.free {c : Counts} {l l' : List Arr} {m o : Nat} (h : CountsOk c l m) (hl : l'.length + 1 = l.length)
    (ht : total l' + o = total l) (hlt : total l < 2 ^ 64) (hm : total l ≤ m) :
    CountsOk (({ c with frees := wrap (c.frees + 1), freeSize := wrap (c.freeSize + o) } : Counts).update (wrap (2 ^ 64 - wrap o))) l' m := by
  obtain ⟨c1, c2, c3, c4⟩ := h
  have e : wrap (c.inUse + wrap (2 ^ 64 - wrap o)) = total l' := by rw [c3]; unfold wrap; omega
  refine ⟨?_, ?_, ?_, ?_⟩
  · show c.allocs = wrap (wrap (c.frees + 1) + l'.length)
    rw [c1, ← hl]; unfold wrap; omega
  · show c.allocSize = wrap (wrap (c.freeSize + o) + total l')
    rw [c2, ← ht]; unfold wrap; omega
  · show wrap (c.inUse + wrap (2 ^ 64 - wrap o)) = wrap (total l')
    rw [e]; unfold wrap; omega
  · show max c.inUseMax (wrap (c.inUse + wrap (2 ^ 64 - wrap o))) = _
    rw [e, c4]; omega

theorem reach_inv {sys : Sys} {s : State} {l : List Arr} {m : Nat} (h : Reach sys s l m) :
    Inv s l ∧ CountsOk s.counts l m ∧ total l ≤ m := by
  induction h with
  | init => exact ⟨⟨rfl, by simp, by simp⟩, CountsOk.init, le_refl _⟩
  | @alloc s l m t n g p s' hr ht hf hg ha ih =>
    obtain ⟨hn, q, fill, rfl⟩ := alloc_ptr ha
    obtain ⟨s'', h1, h2, _, h3⟩ := alloc_step ih.1 ht hf hn hg
    rw [h1] at ha
    cases ha
    refine ⟨h2, ?_, le_max_right _ _⟩
    rw [h3]
    exact ih.2.1.alloc rfl (Nat.add_comm _ _) h2.total_lt
  | @realloc s l m b n g p s' hr hb hf hg ha ih =>
    obtain ⟨hn, q, fill, rfl⟩ := realloc_ptr ih.1 hb ha
    obtain ⟨s'', h1, h2, _, _, h3⟩ := realloc_step ih.1 hb hf hn hg
    rw [h1] at ha
    cases ha
    refine ⟨h2, ?_, le_max_right _ _⟩
    obtain ⟨l1, l2⟩ := ih.1.filter_length hb
    rw [h3]
    refine ih.2.1.realloc (by rw [List.length_cons]; exact l1) ?_ h2.total_lt
    rw [show total (⟨q + offset b.ty.align, b.ty, n⟩ :: l.filter fun x => x.ptr ≠ b.ptr) =
      b.ty.size * n + total (l.filter fun x => x.ptr ≠ b.ptr) from rfl]
    omega
  | @free s l m b s' hr hb ha ih =>
    obtain ⟨s'', h1, h2, _, h3⟩ := free_step ih.1 hb
    rw [h1] at ha
    cases ha
    obtain ⟨l1, l2⟩ := ih.1.filter_length hb
    refine ⟨h2, ?_, by have := ih.2.2; omega⟩
    rw [h3]
    exact ih.2.1.free l1 l2 ih.1.total_lt ih.2.2
  | @write s l m b i v hr hb hi ih => exact ⟨ih.1.write hb hi v, ih.2⟩

end ELC.Alloc
