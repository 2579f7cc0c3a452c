import Verif.Memfile.Spec

/-
The stream in memory: C118 and C119.
-/
namespace ELC.Memfile
open Spec

/-- The stream is the file, in a block that is large enough. -/
structure Is (m : Mem) (f : File) : Prop where
  size : m.size = f.bytes.length
  bytes : m.cells.take m.size = f.bytes.map some
  pos : m.pos = f.pos
  inside : f.pos ≤ f.bytes.length
  room : m.size ≤ m.cells.length
  small : f.bytes.length < 2 ^ 63
  cap : m.cells.length < 2 ^ 64
  low : m.base < 2 ^ 63

theorem is_new (base : Nat) (h : base < 2 ^ 63) : Is (new base) ⟨[], 0⟩ :=
  ⟨rfl, rfl, rfl, Nat.le_refl _, by simp [new], by simp, by simp [new], h⟩

theorem sub64_of_le {a b : Nat} (h : b ≤ a) (ha : a < W) : sub64 a b = a - b := by
  unfold sub64
  rw [Nat.mod_eq_of_lt (a := b) (by omega), show a + W - b = a - b + W by omega, Nat.add_mod_right, Nat.mod_eq_of_lt (by omega)]

theorem sub64_of_lt {a b : Nat} (h : a < b) (hb : b < W) : sub64 a b = a + W - b := by
  unfold sub64
  rw [Nat.mod_eq_of_lt (a := b) (by omega), Nat.mod_eq_of_lt (by omega)]

theorem take_resize (cells : List (Option Nat)) (n s : Nat) (h : s ≤ cells.length) (hn : s ≤ n) :
    (resize cells n).take s = cells.take s := by
  unfold resize
  rw [List.take_append_of_le_length (by simp; omega), List.take_take, min_eq_left hn]

theorem length_resize (cells : List (Option Nat)) (n : Nat) : (resize cells n).length = n := by
  simp [resize]; omega

/-- Growing leaves the file as it is and makes the room. -/
theorem grow_is {m : Mem} {f : File} (h : Is m f) (gold : Nat → Nat) (hg : ∀ n, n ≤ gold n) (moved n : Nat)
    (hn : f.pos + n < 2 ^ 63)
    (hgl : ∀ n, n < 2 ^ 63 → gold n < 2 ^ 64) (hmv : moved < 2 ^ 63) :
    Is (m.grow gold moved n) f ∧ f.pos + n ≤ (m.grow gold moved n).cells.length := by
  have hp := h.pos
  have hi := h.inside
  have hs := h.size
  have hr := h.room
  have hcap := h.cap
  have hW : W = 2 ^ 64 := rfl
  have hsub : sub64 m.bufsize m.pos = m.cells.length - f.pos := by
    rw [show m.bufsize = m.cells.length from rfl, sub64_of_le (by omega) (by omega), hp]
  unfold Mem.grow
  rw [hsub]
  by_cases hc : m.cells.length - f.pos < n
  · rw [if_pos hc]
    have hm : (m.pos + n) % W = f.pos + n := by rw [hp, Nat.mod_eq_of_lt (by omega)]
    have hgg := hg (f.pos + n)
    have hgl' := hgl (f.pos + n) hn
    refine ⟨⟨h.size, ?_, h.pos, h.inside, ?_, h.small, ?_, hmv⟩, ?_⟩
    · dsimp only
      rw [hm, take_resize _ _ _ h.room (by omega)]
      exact h.bytes
    · dsimp only
      rw [hm, length_resize]; omega
    · dsimp only
      rw [hm, length_resize]; exact hgl'
    · dsimp only
      rw [hm, length_resize]; exact hgg
  · rw [if_neg hc]
    exact ⟨h, by omega⟩

theorem map_splice (bytes bs : List Nat) (cells : List (Option Nat)) (p s : Nat)
    (hs : s = bytes.length) (hb : cells.take s = bytes.map some) (hp : p ≤ s)
    (hsc : s ≤ cells.length) :
    (cells.take p ++ bs.map some ++ cells.drop (p + bs.length)).take (max (p + bs.length) s) =
      (bytes.take p ++ bs ++ bytes.drop (p + bs.length)).map some := by
  have h1 : cells.take p = (bytes.take p).map some := by
    rw [List.map_take, ← hb, List.take_take, min_eq_left hp]
  have hl : (cells.take p ++ bs.map some).length = p + bs.length := by simp; omega
  rw [List.take_append, List.take_of_length_le (by rw [hl]; exact le_max_left _ _), hl, List.map_append, List.map_append, h1]
  congr 1
  rw [List.map_drop, ← hb, List.drop_take]
  congr 1
  omega

/-- The bytes are copied into a block that has the room. -/
def put (g : Mem) (bs : List Nat) : Option Mem :=
  if g.pos + bs.length ≤ g.cells.length then
    some { g with
      cells := g.cells.take g.pos ++ bs.map some ++ g.cells.drop (g.pos + bs.length)
      pos := g.pos + bs.length
      size := max (g.pos + bs.length) g.size }
  else none

theorem write_grow (gold : Nat → Nat) (moved : Nat) (m : Mem) (bs : List Nat) :
    m.write gold moved bs = put (m.grow gold moved bs.length) bs := rfl

theorem put_is {g : Mem} {f : File} {bs : List Nat} (h : Is g f) (room : f.pos + bs.length ≤ g.cells.length)
    (hc : f.pos + bs.length < 2 ^ 63) :
    ∃ m', put g bs = some m' ∧
      Is m' ⟨f.bytes.take f.pos ++ bs ++ f.bytes.drop (f.pos + bs.length), f.pos + bs.length⟩ := by
  have gp := h.pos
  have gs := h.size
  have gr := h.room
  have gi := h.inside
  have gm := h.small
  unfold put
  rw [gp, if_pos room]
  have gc := h.cap
  refine ⟨_, rfl, ?_, ?_, rfl, ?_, ?_, ?_, ?_, h.low⟩
  · simp only [List.length_append, List.length_take, List.length_drop]; omega
  · exact map_splice _ _ _ _ _ gs h.bytes (by omega) gr
  · simp only [List.length_append, List.length_take, List.length_drop]; omega
  · simp only [List.length_append, List.length_take, List.length_drop, List.length_map]; omega
  · simp only [List.length_append, List.length_take, List.length_drop]; omega
  · simp only [List.length_append, List.length_take, List.length_drop, List.length_map]; omega

theorem seekTo_base (m : Mem) (k : Nat) (h : m.base + k < W) : m.seekTo (m.base + k) = { m with pos := k } := by
  unfold Mem.seekTo
  rw [sub64_of_le (Nat.le_add_right _ _) h, Nat.add_sub_cancel_left]

/-- One step of the stream is a step of the file. -/
theorem step_is {m : Mem} {f f' : File} {o : Op} {out : List Nat} (h : Is m f) (gold : Nat → Nat) (hg : ∀ n, n ≤ gold n)
    (hgl : ∀ n, n < 2 ^ 63 → gold n < 2 ^ 64) (moved : Nat) (hmv : moved < 2 ^ 63) (hs : f.step o = some (out, f')) :
    ∃ m', step gold m (o, moved) = some (out.map some, m') ∧ Is m' f' := by
  have hW : W = 2 ^ 64 := rfl
  have hp := h.pos
  have hi := h.inside
  have hsz := h.size
  have hr := h.room
  have hsm := h.small
  have hlow := h.low
  cases o with
  | write bs =>
    simp only [File.step] at hs
    by_cases hc : f.pos + bs.length < 2 ^ 63
    · rw [if_pos hc] at hs
      obtain ⟨g, groom⟩ := grow_is h gold hg moved bs.length hc hgl hmv
      injection hs with hs
      injection hs with h1 h2
      subst h1
      subst h2
      obtain ⟨m', e, i⟩ := put_is g groom hc
      refine ⟨m', ?_, i⟩
      simp only [step, List.map_nil]
      rw [write_grow, e]
      rfl
    · rw [if_neg hc] at hs; cases hs
  | read n =>
    simp only [File.step] at hs
    by_cases hc : n < 2 ^ 63
    · rw [if_pos hc] at hs
      injection hs with hs
      injection hs with h1 h2
      subst h1
      subst h2
      have hrs : m.readSize n = min n (f.bytes.length - f.pos) := by
        unfold Mem.readSize
        rw [hp, hsz, Nat.mod_eq_of_lt (by omega)]
        by_cases hlt : f.bytes.length < f.pos + n
        · rw [if_pos hlt, sub64_of_le (by omega) (by omega)]; omega
        · rw [if_neg hlt]; omega
      refine ⟨{ m with pos := m.pos + m.readSize n }, ?_, ⟨h.size, h.bytes, ?_, ?_, h.room, h.small, h.cap, h.low⟩⟩
      · simp only [step, Mem.read]
        rw [if_pos ⟨by omega, by omega⟩]
        congr 2
        rw [hrs, hp]
        have e : (m.cells.drop f.pos).take (min n (f.bytes.length - f.pos)) =
            ((m.cells.take m.size).drop f.pos).take n := by
          rw [List.drop_take, List.take_take, hsz]
        rw [e, h.bytes, ← List.map_drop, ← List.map_take]
      · dsimp only; omega
      · dsimp only; omega
    · rw [if_neg hc] at hs; cases hs
  | rewind =>
    injection hs with hs; injection hs with h1 h2; subst h1; subst h2
    exact ⟨_, rfl, ⟨h.size, h.bytes, rfl, Nat.zero_le _, h.room, h.small, h.cap, h.low⟩⟩
  | toEnd =>
    injection hs with hs; injection hs with h1 h2; subst h1; subst h2
    exact ⟨_, rfl, ⟨h.size, h.bytes, h.size, Nat.le_refl _, h.room, h.small, h.cap, h.low⟩⟩
  | move d =>
    simp only [File.step] at hs
    by_cases hc : 0 ≤ (f.pos : Int) + d ∧ (f.pos : Int) + d ≤ f.bytes.length
    · rw [if_pos hc] at hs
      injection hs with hs; injection hs with h1 h2; subst h1; subst h2
      refine ⟨_, rfl, ⟨h.size, h.bytes, ?_, ?_, h.room, h.small, h.cap, h.low⟩⟩
      · simp only [Mem.seekCur]
        rw [hp, Int.emod_eq_of_lt hc.1 (by rw [hW]; omega)]
      · dsimp only; omega
    · rw [if_neg hc] at hs; cases hs
  | goTo k =>
    simp only [File.step] at hs
    by_cases hc : k ≤ f.bytes.length
    · rw [if_pos hc] at hs
      injection hs with hs; injection hs with h1 h2; subst h1; subst h2
      refine ⟨{ m with pos := k }, ?_, ⟨h.size, h.bytes, rfl, hc, h.room, h.small, h.cap, h.low⟩⟩
      have hk : m.base + k < W := by omega
      simp only [step, List.map_nil]
      rw [seekTo_base m k hk]
    · rw [if_neg hc] at hs; cases hs

theorem run_is (gold : Nat → Nat) (hg : ∀ n, n ≤ gold n) (hgl : ∀ n, n < 2 ^ 63 → gold n < 2 ^ 64)
    (os : List (Op × Nat)) : ∀ {m : Mem} {f f' : File} {outs : List (List Nat)}, Is m f → (∀ o ∈ os, o.2 < 2 ^ 63) →
      f.run (os.map Prod.fst) = some (outs, f') →
      ∃ m', run gold m os = some (outs.map (List.map some), m') ∧ Is m' f' := by
  induction os with
  | nil =>
    intro m f f' outs h _ hr
    simp only [List.map_nil, File.run, Option.some.injEq, Prod.mk.injEq] at hr
    obtain ⟨rfl, rfl⟩ := hr
    exact ⟨m, rfl, h⟩
  | cons o os ih =>
    intro m f f' outs h hm hr
    obtain ⟨o, moved⟩ := o
    simp only [List.map_cons, File.run] at hr
    match hs : f.step o with
    | none => rw [hs] at hr; cases hr
    | some (out, f1) =>
      rw [hs, Option.bind_some] at hr
      match hq : f1.run (os.map Prod.fst) with
      | none => rw [hq] at hr; cases hr
      | some (outs', f2) =>
        rw [hq] at hr
        simp only [Option.map_some, Option.some.injEq, Prod.mk.injEq] at hr
        obtain ⟨rfl, rfl⟩ := hr
        obtain ⟨m1, e1, i1⟩ := step_is h gold hg hgl moved (hm (o, moved) (by simp)) hs
        obtain ⟨m2, e2, i2⟩ := ih i1 (fun o ho => hm o (by simp [ho])) hq
        refine ⟨m2, ?_, i2⟩
        simp only [run]
        rw [e1, Option.bind_some, e2]
        rfl

/-- C118: whatever is written, read and sought in it, as long as the position stays in the file, the stream reads what
a file reads, and holds the same bytes at the end, wherever its block moves. -/
theorem memory_file (gold : Nat → Nat) (hg : ∀ n, n ≤ gold n) (hgl : ∀ n, n < 2 ^ 63 → gold n < 2 ^ 64)
    (base : Nat) (hb : base < 2 ^ 63) (os : List (Op × Nat)) (hm : ∀ o ∈ os, o.2 < 2 ^ 63) (f : File)
    (outs : List (List Nat)) (hr : File.run ⟨[], 0⟩ (os.map Prod.fst) = some (outs, f)) :
    ∃ m, run gold (new base) os = some (outs.map (List.map some), m) ∧ contents m = f.bytes.map some ∧
      m.pos = f.pos := by
  obtain ⟨m, e, i⟩ := run_is gold hg hgl os (is_new base hb) hm hr
  exact ⟨m, e, i.bytes, i.pos⟩

/-- The size the block is given, with the fraction 809/500 for the golden ratio. -/
example : (∀ n, n ≤ n * 809 / 500) ∧ ∀ n, n < 2 ^ 63 → n * 809 / 500 < 2 ^ 64 := by
  constructor <;> intro n <;> omega

example : File.run ⟨[], 0⟩ [.write [1, 2, 3], .rewind, .read 2, .write [9], .goTo 1, .read 5, .move (-2), .read 1] =
    some ([[], [], [1, 2], [], [], [2, 9], [], [2]], ⟨[1, 2, 9], 2⟩) := by decide +kernel

/-! ### Beyond the file -/

/-- C119 is false of the stream: `seek` from the beginning or the end does not look at the offset. -/
theorem seek_offset_refuted : ∃ m : Mem, contents m = [some 1, some 2, some 3] ∧
    (m.seekBeg 2).1.pos = 0 ∧ (m.seekEnd (-1)).1.pos = 3 ∧
    (m.seekBeg 2).1.read 1 = some ([some 1], (m.seekCur (-2)).1) :=
  ⟨⟨0, [some 1, some 2, some 3, none], 3, 3⟩, by decide +kernel, rfl, rfl, by decide +kernel⟩

/-- C119, exactly: the offset never matters there. -/
theorem seek_offset_characterised (m : Mem) (d : Int) :
    (m.seekBeg d).1 = { m with pos := 0 } ∧ (m.seekEnd d).1 = { m with pos := m.size } := ⟨rfl, rfl⟩

/-- C119, exactly: a position after the end can be reached, and reading there, even nothing, goes outside the buffer. -/
theorem read_beyond_characterised (m : Mem) (n : Nat) (hs : m.size < 2 ^ 63) (hp : m.pos < 2 ^ 63) (hn : n < 2 ^ 63)
    (hr : m.size ≤ m.cells.length) : m.read n = none ↔ m.size < m.pos := by
  have hW : W = 2 ^ 64 := rfl
  have hmod : (m.pos + n) % W = m.pos + n := Nat.mod_eq_of_lt (by omega)
  unfold Mem.read Mem.readSize
  rw [hmod]
  constructor
  · intro h
    by_contra hc
    by_cases hlt : m.size < m.pos + n
    · rw [if_pos hlt, sub64_of_le (by omega) (by omega), if_pos ⟨by omega, by omega⟩] at h
      cases h
    · rw [if_neg hlt, if_pos ⟨by omega, by omega⟩] at h
      cases h
  · intro h
    have hlt : m.size < m.pos + n := by omega
    rw [if_pos hlt, sub64_of_lt h (by omega), if_neg]
    omega

/-- C119, exactly: writing goes outside the block if the position is after the end of the block, which then does not
grow. -/
theorem write_beyond_characterised (gold : Nat → Nat) (hg : ∀ n, n ≤ gold n) (moved : Nat) (m : Mem) (bs : List Nat)
    (hp : m.pos < 2 ^ 63) (hn : bs.length < 2 ^ 63) (hc : m.cells.length < 2 ^ 64) :
    m.write gold moved bs = none ↔ m.cells.length < m.pos := by
  have hW : W = 2 ^ 64 := rfl
  have hb : m.bufsize = m.cells.length := rfl
  have hmod : (m.pos + bs.length) % W = m.pos + bs.length := Nat.mod_eq_of_lt (by omega)
  have hgg := hg (m.pos + bs.length)
  rw [write_grow]
  by_cases h : m.cells.length < m.pos
  · have hsub : sub64 m.bufsize m.pos = m.cells.length + W - m.pos := by rw [hb, sub64_of_lt h (by omega)]
    have e : m.grow gold moved bs.length = m := by
      unfold Mem.grow
      rw [hsub, if_neg (by omega)]
    rw [e]
    unfold put
    rw [if_neg (by omega)]
    simp [h]
  · have hsub : sub64 m.bufsize m.pos = m.cells.length - m.pos := by rw [hb, sub64_of_le (by omega) (by omega)]
    have hpos : (m.grow gold moved bs.length).pos = m.pos := by
      unfold Mem.grow
      split <;> rfl
    have hlen : m.pos + bs.length ≤ (m.grow gold moved bs.length).cells.length := by
      unfold Mem.grow
      rw [hsub, hmod]
      by_cases hlt : m.cells.length - m.pos < bs.length
      · rw [if_pos hlt]
        dsimp only
        rw [length_resize]
        exact hgg
      · rw [if_neg hlt]; omega
    unfold put
    rw [hpos, if_pos hlen]
    simp [h]

/-- C119 is false of the stream: after the end but in the block, what is written leaves bytes before it that were never
written, and a read at the end of the file reads outside. -/
theorem seek_beyond_refuted : ((new 0).seekCur 2).1.read 0 = none ∧
    (((new 0).seekCur 2).1.write id 0 [7]).map contents = some [none, none, some 7] ∧
    ((new 0).seekCur 101).1.write id 0 [7] = none := by decide +kernel

/-- C119 is false of the stream: a position is a pointer, so when the block grows and moves, `seek_to` to a position told
before goes somewhere else, and reading there is outside. -/
theorem tell_refuted : ((new 1000).seekCur 0).2 = 1000 ∧
    ((new 1000).write (fun n => n * 809 / 500) 5000 (List.replicate 101 1)).map
      (fun m => ((m.seekTo 1000).pos, (m.seekTo 1000).read 1)) = some (2 ^ 64 - 4000, none) := by
  constructor
  · decide +kernel
  · decide +kernel

/-- C119, exactly: `seek_to` to a position told before leads back to it if the block is where it was. -/
theorem tell_characterised (m m' : Mem) (hp : m.pos < W) (hb : m.base + m.pos < W) (hb' : m'.base < W) :
    (m'.seekTo (m.seekCur 0).2).pos = m.pos ↔ m'.base = m.base := by
  have hW : W = 2 ^ 64 := rfl
  have e : (m.seekCur 0).2 = m.base + m.pos := by
    simp only [Mem.seekCur]
    rw [Int.add_zero, Int.emod_eq_of_lt (by omega) (by omega)]
    simp
  have e2 : (m'.seekTo (m.base + m.pos)).pos = sub64 (m.base + m.pos) m'.base := rfl
  rw [e, e2]
  by_cases h : m'.base ≤ m.base + m.pos
  · rw [sub64_of_le h hb]; omega
  · rw [sub64_of_lt (by omega) hb']; omega

/-- C119 is false of the stream: `close` leaves the position, so after it even reading nothing, or writing, goes outside,
unless the position was the beginning. -/
theorem close_refuted : ∃ m : Mem, contents m = [some 1] ∧ m.close.read 0 = none ∧ m.close.write id 0 [7] = none :=
  ⟨⟨0, [some 1, none], 1, 1⟩, by decide +kernel, by decide +kernel, by decide +kernel⟩

/-- C119, exactly. -/
theorem close_characterised (gold : Nat → Nat) (hg : ∀ n, n ≤ gold n) (moved : Nat) (m : Mem) (bs : List Nat) (n : Nat)
    (hp : m.pos < 2 ^ 63) (hn : n < 2 ^ 63) (hb : bs.length < 2 ^ 63) :
    (m.close.read n = none ↔ 0 < m.pos) ∧ (m.close.write gold moved bs = none ↔ 0 < m.pos) :=
  ⟨read_beyond_characterised m.close n (by simp [Mem.close]) hp hn (by simp [Mem.close]),
    write_beyond_characterised gold hg moved m.close bs hp hb (by simp [Mem.close])⟩

end ELC.Memfile
