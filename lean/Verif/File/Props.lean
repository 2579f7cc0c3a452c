import Verif.File.Lemmas
/-! The properties of streams onto files, C141-C144. -/
namespace ELC.File
open Spec

/-- A system with one file open. -/
def sample (text : List Nat) : Os := ⟨fun _ => text, fun h => if h = 3 then some ⟨0, 0, 0⟩ else none⟩

/-! ### C141 -/

/-- C141: a read that does not fail delivers the next bytes of what is to come, tells how many, and leaves the rest. -/
theorem read_partial {sys : Sys} {os : Os} {s : Stream} {d : Desc} (ho : os.opened s.handle = some d) {size : Nat}
    (hs : sys = .posix ∨ size < 2 ^ 32) (h64 : size < 2 ^ 64) (k : Nat) :
    ∃ data os' s' p, read sys os s size (some k) = (data.length, data, os', s') ∧ data.length ≤ size ∧
      ahead os s = data ++ ahead os' s' ∧ s'.handle = s.handle ∧ os'.opened s.handle = some { d with pos := p } ∧
      os'.files = os.files := by
  unfold read
  by_cases h0 : size = 0
  · rw [if_pos h0]
    exact ⟨[], os, s, d.pos, rfl, Nat.zero_le _, rfl, rfl, by rw [ho], rfl⟩
  · rw [if_neg h0]
    dsimp only
    have hc : cut sys (size - (s.back.take size).length) = size - (s.back.take size).length :=
      cut_eq (hs.imp id (fun h => by omega))
    rw [basicRead_ok ho hc]
    have hlen : (s.back.take size ++ ((os.files d.file).drop d.pos).take (min (size - (s.back.take size).length) k)).length ≤ size := by
      rw [List.length_append, List.length_take, List.length_take]; omega
    generalize hp : ((os.files d.file).drop d.pos).take (min (size - (s.back.take size).length) k) = part at hlen ⊢
    refine ⟨s.back.take size ++ part, { os with opened := set os.opened s.handle (some { d with pos := d.pos + part.length }) },
      { s with back := s.back.drop size }, d.pos + part.length, ?_, hlen, ?_, rfl, set_self _ _ _, rfl⟩
    · rw [List.length_append] at hlen
      rw [List.length_append, show wrap _ = _ from Nat.mod_eq_of_lt (by omega)]
    · rw [ahead_open ho, ahead_open (set_self _ _ _), ← hp]
      dsimp only
      rw [List.append_assoc]
      by_cases hb : size ≤ s.back.length
      · have e : (s.back.take size).length = size := by rw [List.length_take]; omega
        rw [e, Nat.sub_self, Nat.zero_min, List.take_zero, List.length_nil, Nat.add_zero, List.nil_append, ← List.append_assoc,
          List.take_append_drop]
      · rw [List.drop_eq_nil_of_le (as := s.back) (by omega), List.take_of_length_le (l := s.back) (by omega), List.nil_append, drop_take_length]

example : ∃ data os' s' p, read .posix (sample [1, 2, 3]) ⟨3, [9]⟩ 3 (some 1) = (data.length, data, os', s') ∧ data.length ≤ 3 ∧
    ahead (sample [1, 2, 3]) ⟨3, [9]⟩ = data ++ ahead os' s' ∧ s'.handle = 3 ∧
    os'.opened 3 = some { (⟨0, 0, 0⟩ : Desc) with pos := p } ∧ os'.files = (sample [1, 2, 3]).files :=
  read_partial (s := ⟨3, [9]⟩) rfl (.inl rfl) (by decide) 1

/-- C141: over every history of reads, in whatever portions the system delivers, and of data put back, each read gives the next
bytes, and nothing is lost or comes twice.  Missing: reads at which the system reports an error, reads of 2^32 bytes on
Windows. -/
theorem reads_partial {sys : Sys} : ∀ (ops : List Op) {os : Os} {s : Stream} {d : Desc}, os.opened s.handle = some d →
    (∀ size k, Op.read size k ∈ ops → k ≠ none ∧ size < 2 ^ 32) →
    Reads (ahead os s) ops (run sys os s ops).1 (ahead (run sys os s ops).2.1 (run sys os s ops).2.2) := by
  intro ops
  induction ops with
  | nil => intro os s d _ _; exact .done
  | cons op ops ih =>
    intro os s d ho hall
    cases op with
    | read size k =>
      obtain ⟨hk, hs⟩ := hall size k List.mem_cons_self
      obtain ⟨k, rfl⟩ := Option.ne_none_iff_exists'.1 hk
      obtain ⟨data, os', s', p, h1, h2, h3, h4, h5, _⟩ := read_partial (sys := sys) ho (.inr hs) (by omega) k
      simp only [run, h1, List.take_length]
      refine .read (by rw [h3]; exact List.prefix_append _ _) h2 ?_
      rw [h3, List.drop_left]
      exact ih (by rw [h4]; exact h5) (fun a b h => hall a b (List.mem_cons_of_mem _ h))
    | unread data =>
      simp only [run]
      refine .unread ?_
      have := ih (s := unread s data) ho (fun a b h => hall a b (List.mem_cons_of_mem _ h))
      rw [show ahead os (unread s data) = data ++ ahead os s from List.append_assoc _ _ _] at this
      exact this

example : Reads [1, 2, 3] [.read 2 (some 1), .unread [7], .read 5 (some 5)] [[1], [7, 2, 3]] [] :=
  reads_partial (sys := .posix) [.read 2 (some 1), .unread [7], .read 5 (some 5)] (os := sample [1, 2, 3]) (s := ⟨3, []⟩) rfl
    (by intro a b h; simp at h; rcases h with ⟨rfl, rfl⟩ | ⟨rfl, rfl⟩ <;> decide)

/-- C141 is false when the system reports an error: 2^64 - 1 characters are said to be read; with three characters held back
two. -/
theorem read_error_refuted :
    (read .posix (sample [1]) ⟨3, []⟩ 4 none).1 = 2 ^ 64 - 1 ∧ (read .posix (sample [1]) ⟨3, []⟩ 4 none).2.1 = [] ∧
    (read .posix (sample [1]) ⟨3, [7, 8, 9]⟩ 4 none).1 = 2 ∧ (read .posix (sample [1]) ⟨3, [7, 8, 9]⟩ 4 none).2.1 = [7, 8, 9] := by
  refine ⟨?_, ?_, ?_, ?_⟩ <;> decide +kernel

/-- C141: exactly what a failing read says, on POSIX systems. -/
theorem read_error_characterised (os : Os) (s : Stream) {size : Nat} (h0 : 0 < size) (h64 : size < 2 ^ 64) :
    (read .posix os s size none).1 = (if s.back = [] then 2 ^ 64 - 1 else min size s.back.length - 1) ∧
    (read .posix os s size none).2.1 = s.back.take size := by
  have e : basicRead .posix os s.handle (size - (s.back.take size).length) none = (2 ^ 64 - 1, [], os) := by
    unfold basicRead osRead
    cases os.opened s.handle <;> rfl
  unfold read
  rw [if_neg (by omega)]
  dsimp only
  rw [e]
  refine ⟨?_, List.append_nil _⟩
  show wrap ((s.back.take size).length + (2 ^ 64 - 1)) = _
  rw [List.length_take]
  by_cases hb : s.back = []
  · rw [if_pos hb, hb]
    unfold wrap
    rw [List.length_nil]
    omega
  · rw [if_neg hb]
    have : 0 < s.back.length := List.length_pos_iff.2 hb
    unfold wrap
    omega

example : (read .posix (sample []) ⟨3, [5, 6]⟩ 1 none).1 = 0 := (read_error_characterised (sample []) ⟨3, [5, 6]⟩ (by decide) (by decide)).1

/-- C141 is false on Windows for reads of 2^32 bytes: nothing is read, as at the end of the file. -/
theorem read_large_refuted : (read .windows (sample [1, 2]) ⟨3, []⟩ (2 ^ 32) (some (2 ^ 32))).1 = 0 ∧
    (read .posix (sample [1, 2]) ⟨3, []⟩ (2 ^ 32) (some (2 ^ 32))).1 = 2 := by
  constructor <;> decide +kernel

/-- C141: without an error, `get` gives the next byte and takes it; `peek` gives it and takes nothing; both give 0 when nothing
comes. -/
theorem get_peek_partial {sys : Sys} {os : Os} {s : Stream} {d : Desc} (ho : os.opened s.handle = some d) {k : Nat} (hk : 0 < k)
    (junk : Nat) :
    (get sys os s (some k) junk).1 = (ahead os s).headD 0 ∧
    ahead (get sys os s (some k) junk).2.1 (get sys os s (some k) junk).2.2 = (ahead os s).tail ∧
    (peek sys os s (some k) junk).1 = (ahead os s).headD 0 ∧
    ahead (peek sys os s (some k) junk).2.1 (peek sys os s (some k) junk).2.2 = ahead os s := by
  obtain ⟨data, os', s', p, h1, h2, h3, h4, h5, h6⟩ := read_partial (sys := sys) ho (size := 1) (.inr (by decide)) (by decide) k
  have hnil : data = [] → ahead os' s' = [] := by
    intro hd
    have hr := congrArg (fun x => x.2.1) h1
    have e : basicRead sys os s.handle (1 - (s.back.take 1).length) (some k) = _ := basicRead_ok ho (cut_eq (.inr (by omega)))
    simp only [read, if_neg (show ¬ (1 = 0) by decide), e] at hr
    rw [hd, List.append_eq_nil_iff] at hr
    obtain ⟨hr1, hr2⟩ := hr
    have hb : s.back = [] := by
      cases hsb : s.back with
      | nil => rfl
      | cons a b => rw [hsb] at hr1; cases hr1
    rw [hb] at hr2
    have hf : (os.files d.file).drop d.pos = [] := by
      cases hsb : (os.files d.file).drop d.pos with
      | nil => rfl
      | cons a b =>
        rw [hsb, show min (1 - ([].take 1 : List Nat).length) k = 1 by simp; omega] at hr2
        cases hr2
    rw [ahead_open ho, hb, hf, hd] at h3
    exact h3.symm
  unfold get peek
  rw [h1]
  dsimp only
  match data, h2 with
  | [], _ =>
    rw [List.length_nil, if_pos rfl, if_pos rfl, h3, hnil rfl]
    exact ⟨rfl, rfl, rfl, rfl⟩
  | [c], _ =>
    rw [h3]
    refine ⟨rfl, rfl, rfl, ?_⟩
    show ahead os' (unread s' [c]) = _
    rfl
  | _ :: _ :: _, h => simp at h

example : (get .posix (sample [1, 2]) ⟨3, []⟩ (some 1) 7).1 = 1 := (get_peek_partial (s := ⟨3, []⟩) rfl (by decide) 7).1

/-- C141 is false for `get` and `peek` when the system reports an error: what was in memory is given, and `peek` puts it into the
stream. -/
theorem get_error_refuted (junk : Nat) :
    (get .posix (sample [1]) ⟨3, []⟩ none junk).1 = junk ∧
    ahead (peek .posix (sample [1]) ⟨3, []⟩ none junk).2.1 (peek .posix (sample [1]) ⟨3, []⟩ none junk).2.2 = [junk, 1] := by
  constructor <;> rfl

/-! ### C142 -/

/-- C142: where `seek` goes on POSIX systems, and what it and `tell` answer: exactly. -/
theorem seek_posix {os : Os} {s : Stream} {d : Desc} (ho : os.opened s.handle = some d) (dir : Dir) (off : Int) :
    tell .posix os s = d.pos ∧
    (origin os d dir + off < 0 → seek .posix os s dir off = (-1, os)) ∧
    (0 ≤ origin os d dir + off → (seek .posix os s dir off).1 = origin os d dir + off ∧
      (seek .posix os s dir off).2.opened s.handle = some { d with pos := (origin os d dir + off).toNat } ∧
      (seek .posix os s dir off).2.files = os.files) := by
  refine ⟨tell_ok ho (.inl rfl), fun h => ?_, fun h => ?_⟩
  · unfold seek
    dsimp only
    rw [osSeek_neg ho h]
  · unfold seek
    dsimp only
    rw [osSeek_ok ho (p := (origin os d dir + off).toNat) (by show origin os d dir + off = _; omega) (.inl rfl)]
    exact ⟨by dsimp only; omega, set_self _ _ _, rfl⟩

example : (seek .posix (sample [1, 2, 3]) ⟨3, []⟩ .fin (-1)).1 = 2 :=
  ((seek_posix (os := sample [1, 2, 3]) (s := ⟨3, []⟩) rfl .fin (-1)).2.2 (by decide)).1

theorem seekTo_ok {sys : Sys} {os : Os} {s : Stream} {d : Desc} (ho : os.opened s.handle = some d) {pos : Nat}
    (hp : sys = .posix ∨ pos < 2 ^ 31) :
    (seekTo sys os s pos).1 = true ∧ (seekTo sys os s pos).2 = { os with opened := set os.opened s.handle (some { d with pos := pos }) } := by
  cases sys with
  | posix =>
    unfold seekTo seek
    dsimp only
    rw [osSeek_ok ho (p := pos) (Int.zero_add _) (.inl rfl)]
    exact ⟨beq_self_eq_true _, rfl⟩
  | windows =>
    have hp : pos < 2 ^ 31 := hp.resolve_left (by simp)
    unfold seekTo seek
    dsimp only
    rw [osSeek_ok ho (p := pos) (by simp only [origin, adjust, toLong]; omega) (.inr (by omega))]
    refine ⟨?_, rfl⟩
    dsimp only
    rw [tell_ok (s := s) (d := { d with pos := pos }) (set_self _ _ _) (.inr (by dsimp only; omega))]
    exact beq_self_eq_true _

/-- C142: a position told earlier can be returned to from anywhere in the file, and reading goes on as it would have then.
Missing: streams that hold back data, positions from 2^31 on Windows. -/
theorem told_partial {sys : Sys} {os os' : Os} {s s' : Stream} {d : Desc} (ho : os.opened s.handle = some d) {q : Nat}
    (ho' : os'.opened s.handle = some { d with pos := q }) (hf : os'.files = os.files) (hh : s'.handle = s.handle) (hb : s.back = [])
    (hb' : s'.back = []) (hp : sys = .posix ∨ d.pos < 2 ^ 31) :
    (seekTo sys os' s' (tell sys os s)).1 = true ∧ ahead (seekTo sys os' s' (tell sys os s)).2 s' = ahead os s := by
  rw [tell_ok ho (hp.imp id (fun h => by omega))]
  rw [← hh] at ho'
  obtain ⟨h1, h2⟩ := seekTo_ok ho' hp
  refine ⟨h1, ?_⟩
  rw [h2, ahead_open ho, ahead_open (set_self _ _ _), hb, hb']
  dsimp only
  rw [hf]

example : (seekTo .windows ⟨(sample [1, 2, 3]).files, fun h => if h = 3 then some ⟨0, 2, 0⟩ else none⟩ ⟨3, []⟩
    (tell .windows (sample [1, 2, 3]) ⟨3, []⟩)).1 = true :=
  (told_partial (sys := .windows) (os := sample [1, 2, 3]) (os' := ⟨(sample [1, 2, 3]).files, fun h => if h = 3 then some ⟨0, 2, 0⟩ else none⟩)
    (s := ⟨3, []⟩) (s' := ⟨3, []⟩) (d := ⟨0, 0, 0⟩) (q := 2) rfl rfl rfl rfl rfl rfl (.inr (by decide))).1

/-- C142 is false for a stream that holds back data, as after `peek`: what was held back still comes first. -/
theorem seek_held_refuted :
    let r := peek .posix (sample [1, 2, 3]) ⟨3, []⟩ (some 1) 0
    let t := seekTo .posix r.2.1 r.2.2 2
    t.1 = true ∧ (get .posix t.2 r.2.2 (some 1) 0).1 = 1 ∧ tell .posix r.2.1 r.2.2 = 1 := by
  refine ⟨?_, ?_, ?_⟩ <;> decide +kernel

/-- C142: exactly what is read after `seek_to`: what was held back, then the file from the place on; and `tell` is ahead of the
next byte by what is held back. -/
theorem seek_held_characterised {os : Os} {s : Stream} {d : Desc} (ho : os.opened s.handle = some d) (pos : Nat) :
    ahead (seekTo .posix os s pos).2 s = s.back ++ (os.files d.file).drop pos ∧
    ahead os s = s.back ++ (os.files d.file).drop (tell .posix os s).toNat := by
  constructor
  · rw [(seekTo_ok ho (.inl rfl)).2, ahead_open (set_self _ _ _)]
  · rw [ahead_open ho, (seek_posix ho .cur 0).1, Int.toNat_natCast]

example : ahead (seekTo .posix (sample [1, 2, 3]) ⟨3, [7]⟩ (1 : Nat)).2 ⟨3, [7]⟩ = [7, 2, 3] :=
  (seek_held_characterised (os := sample [1, 2, 3]) (s := ⟨3, [7]⟩) rfl 1).1

/-- C142 is false on Windows for large positions: `seek_to` 2^31 stays where it is, and `seek_to` 2^32 + 1 goes to 1. -/
theorem seek_large_refuted :
    (seekTo .windows (sample [1, 2, 3]) ⟨3, []⟩ (2 ^ 31)).1 = false ∧
    tell .windows (seekTo .windows (sample [1, 2, 3]) ⟨3, []⟩ (2 ^ 31)).2 ⟨3, []⟩ = 0 ∧
    (seekTo .windows (sample [1, 2, 3]) ⟨3, []⟩ (2 ^ 32 + 1)).1 = false ∧
    tell .windows (seekTo .windows (sample [1, 2, 3]) ⟨3, []⟩ (2 ^ 32 + 1)).2 ⟨3, []⟩ = 1 := by
  refine ⟨?_, ?_, ?_, ?_⟩ <;> decide +kernel

/-! ### C143 -/

/-- C143: a write that the system carries out as a whole replaces what is in the file at the place of the stream, byte for byte,
leaves the rest of the file, and moves the place behind it.  Missing: writes carried out in part, with an error, or of 2^32
bytes on Windows. -/
theorem write_partial {sys : Sys} {os : Os} {s : Stream} {d : Desc} (ho : os.opened s.handle = some d) {data : List Nat}
    (hd : data ≠ []) (hs : sys = .posix ∨ data.length < 2 ^ 32) {k : Nat} (hk : data.length ≤ k) :
    (∀ i, ((write sys os s data (some k)).files d.file)[i]? =
      if d.pos ≤ i ∧ i < d.pos + data.length then data[i - d.pos]?
      else if i < (os.files d.file).length then (os.files d.file)[i]? else if i < d.pos then some 0 else none) ∧
    (∀ j, j ≠ d.file → (write sys os s data (some k)).files j = os.files j) ∧
    (write sys os s data (some k)).opened s.handle = some { d with pos := d.pos + data.length } := by
  unfold write osWrite
  rw [ho, cut_eq hs, List.take_length]
  dsimp only
  rw [List.take_of_length_le hk, if_neg hd]
  refine ⟨fun i => ?_, fun j hj => set_other _ _ hj, set_self _ _ _⟩
  dsimp only
  rw [set_self]
  exact overwrite_get _ _ _ _

example : ((write .posix (sample [1, 2, 3]) ⟨3, []⟩ [8, 9] (some 2)).files 0)[1]? = some 9 :=
  (write_partial (os := sample [1, 2, 3]) (s := ⟨3, []⟩) rfl (by simp) (.inl rfl) (by decide)).1 1

/-- C143 is false when the system writes only a part, or reports an error: the rest is never written, and nothing tells so. -/
theorem write_short_refuted :
    (write .posix (sample []) ⟨3, []⟩ [1, 2, 3] (some 2)).files 0 = [1, 2] ∧
    (write .posix (sample []) ⟨3, []⟩ [1, 2, 3] none).files 0 = [] := by
  constructor <;> decide +kernel

/-- C143: exactly what is written: the part of the data that the system took, and nothing at an error. -/
theorem write_characterised {os : Os} {s : Stream} {d : Desc} (ho : os.opened s.handle = some d) (data : List Nat) (k : Nat) :
    (data.take k ≠ [] → write .posix os s data (some k) = write .posix os s (data.take k) (some (data.take k).length)) ∧
    (data.take k = [] → write .posix os s data (some k) = os) ∧ write .posix os s data none = os := by
  refine ⟨fun h => ?_, fun h => ?_, ?_⟩
  · unfold write osWrite
    rw [ho, cut_eq (.inl rfl), cut_eq (.inl rfl), List.take_length, List.take_length]
    dsimp only
    rw [List.take_length]
  · unfold write osWrite
    rw [ho, cut_eq (.inl rfl), List.take_length]
    dsimp only
    rw [if_pos h]
  · unfold write osWrite
    rw [ho]

example : write .posix (sample []) ⟨3, []⟩ [1, 2, 3] none = sample [] :=
  (write_characterised (os := sample []) (s := ⟨3, []⟩) rfl [1, 2, 3] 0).2.2

/-- C143: what was written as a whole is read back. -/
theorem write_read_back {os : Os} {s : Stream} {d : Desc} (ho : os.opened s.handle = some d) (hb : s.back = []) {data : List Nat}
    (hd : data ≠ []) {k : Nat} (hk : data.length ≤ k) (hp : d.pos ≤ (os.files d.file).length) :
    ∃ rest, ahead (seekTo .posix (write .posix os s data (some k)) s d.pos).2 s = data ++ rest := by
  obtain ⟨_, _, h3⟩ := write_partial (sys := .posix) ho hd (.inl rfl) hk
  rw [(seekTo_ok h3 (.inl rfl)).2, ahead_open (set_self _ _ _), hb]
  refine ⟨(os.files d.file).drop (d.pos + data.length), ?_⟩
  dsimp only
  rw [List.nil_append]
  unfold write osWrite
  rw [ho, cut_eq (.inl rfl), List.take_length]
  dsimp only
  rw [List.take_of_length_le hk, if_neg hd]
  dsimp only
  rw [set_self]
  unfold overwrite
  rw [Nat.sub_eq_zero_of_le hp, List.replicate_zero, List.append_nil, List.append_assoc]
  exact List.drop_left' (by rw [List.length_take]; omega)

example : ∃ rest, ahead (seekTo .posix (write .posix (sample [1, 2, 3]) ⟨3, []⟩ [8, 9] (some 2)) ⟨3, []⟩ (0 : Nat)).2 ⟨3, []⟩ = [8, 9] ++ rest :=
  write_read_back (os := sample [1, 2, 3]) (s := ⟨3, []⟩) rfl rfl (by simp) (by decide) (by decide)

/-! ### C144 -/

/-- What holds in every reached world. -/
structure Owned (w : World) : Prop where
  own : ∀ i s, (i, s) ∈ w.streams → s.handle ≠ 0 ∧ i < w.next ∧ ∃ d, w.os.opened s.handle = some d ∧ d.opening = i
  all : ∀ h d, w.os.opened h = some d → ∃ s, (d.opening, s) ∈ w.streams ∧ s.handle = h
  uniq : (w.streams.map Prod.fst).Nodup

theorem Owned.same {w : World} (o : Owned w) {i : Nat} {s t : Stream} (hs : (i, s) ∈ w.streams) (ht : (i, t) ∈ w.streams) : s = t := by
  have h : ∀ l : List (Nat × Stream), (l.map Prod.fst).Nodup → (i, s) ∈ l → (i, t) ∈ l → s = t := by
    intro l
    induction l with
    | nil => intro _ h; simp at h
    | cons x l ih =>
      intro hn h1 h2
      rw [List.map_cons, List.nodup_cons] at hn
      rcases List.mem_cons.1 h1 with e1 | h1
      · rcases List.mem_cons.1 h2 with e2 | h2
        · rw [← e1] at e2; exact (Prod.mk.inj e2).2.symm
        · exact absurd (List.mem_map_of_mem (f := Prod.fst) h2) (by rw [← e1] at hn; exact hn.1)
      · rcases List.mem_cons.1 h2 with e2 | h2
        · exact absurd (List.mem_map_of_mem (f := Prod.fst) h1) (by rw [← e2] at hn; exact hn.1)
        · exact ih hn.2 h1 h2
  exact h _ o.uniq hs ht

theorem Owned.handles {w : World} (o : Owned w) {i j : Nat} {s t : Stream} (hs : (i, s) ∈ w.streams) (ht : (j, t) ∈ w.streams)
    (hne : i ≠ j) : s.handle ≠ t.handle := by
  intro he
  obtain ⟨_, _, d, h1, h2⟩ := o.own i s hs
  obtain ⟨_, _, d', h3, h4⟩ := o.own j t ht
  rw [he, h3] at h1
  cases h1
  exact hne (h2.symm.trans h4)

/-- A step that keeps the openings. -/
theorem Owned.keep {w : World} (o : Owned w) {os' : Os}
    (h : ∀ x, (os'.opened x).map Desc.opening = (w.os.opened x).map Desc.opening) : Owned { w with os := os' } where
  own := by
    intro i s hs
    obtain ⟨h1, h2, d, h3, h4⟩ := o.own i s hs
    refine ⟨h1, h2, ?_⟩
    have := h s.handle
    rw [h3, Option.map_some, Option.map_eq_some_iff] at this
    obtain ⟨d', e1, e2⟩ := this
    exact ⟨d', e1, e2.trans h4⟩
  all := by
    intro x d hx
    have := h x
    dsimp only at hx
    rw [hx, Option.map_some] at this
    obtain ⟨d', e1, e2⟩ := Option.map_eq_some_iff.1 this.symm
    rw [← e2]
    exact o.all x d' e1
  uniq := o.uniq

theorem opening_set {f : Nat → Option Desc} {h : Nat} {d : Desc} (hd : f h = some d) (p : Nat) (x : Nat) :
    (set f h (some { d with pos := p }) x).map Desc.opening = (f x).map Desc.opening := by
  by_cases hx : x = h
  · rw [hx, set_self, hd]; rfl
  · rw [set_other _ _ hx]

theorem read_opening (sys : Sys) (os : Os) (s : Stream) (size : Nat) (k : Option Nat) (x : Nat) :
    ((read sys os s size k).2.2.1.opened x).map Desc.opening = (os.opened x).map Desc.opening := by
  unfold read
  by_cases h0 : size = 0
  · rw [if_pos h0]
  · rw [if_neg h0]
    dsimp only
    unfold basicRead osRead
    cases hd : os.opened s.handle with
    | none => rfl
    | some d =>
      cases k with
      | none => rfl
      | some k => exact opening_set hd _ x

theorem write_opening (sys : Sys) (os : Os) (s : Stream) (data : List Nat) (k : Option Nat) (x : Nat) :
    ((write sys os s data k).opened x).map Desc.opening = (os.opened x).map Desc.opening := by
  unfold write osWrite
  cases hd : os.opened s.handle with
  | none => rfl
  | some d =>
    cases k with
    | none => rfl
    | some k =>
      dsimp only
      split
      · rfl
      · exact opening_set hd _ x

theorem osSeek_opening (sys : Sys) (os : Os) (h : Nat) (dir : Dir) (off : Int) (x : Nat) :
    ((osSeek sys os h dir off).2.opened x).map Desc.opening = (os.opened x).map Desc.opening := by
  unfold osSeek
  cases hd : os.opened h with
  | none => rfl
  | some d =>
    dsimp only
    split
    · rfl
    · exact opening_set hd _ x

theorem seek_opening (sys : Sys) (os : Os) (s : Stream) (dir : Dir) (off : Int) (x : Nat) :
    ((seek sys os s dir off).2.opened x).map Desc.opening = (os.opened x).map Desc.opening := by
  rw [← osSeek_opening sys os s.handle dir off x]
  unfold seek
  cases sys with
  | posix =>
    dsimp only
    cases osSeek .posix os s.handle dir off with
    | mk a b => cases a <;> rfl
  | windows => rfl

theorem owned {sys : Sys} {w : World} (h : Reach sys w) : Owned w := by
  induction h with
  | start => exact ⟨by simp, by simp, by simp⟩
  | @step w w' _ hs o =>
    cases hs with
    | @opens file h hfree h0 =>
      refine ⟨?_, ?_, ?_⟩
      · intro i s hs
        rcases List.mem_cons.1 hs with e | hs
        · cases e
          exact ⟨h0, Nat.lt_succ_self _, _, set_self _ _ _, rfl⟩
        · obtain ⟨h1, h2, d, h3, h4⟩ := o.own i s hs
          refine ⟨h1, Nat.lt_succ_of_lt h2, d, ?_, h4⟩
          have : s.handle ≠ h := by rintro rfl; rw [hfree] at h3; cases h3
          exact (set_other _ _ this).trans h3
      · intro x d hx
        by_cases he : x = h
        · subst he
          have : d = ⟨file, 0, w.next⟩ := (Option.some.inj ((set_self _ _ _).symm.trans hx)).symm
          subst this
          exact ⟨_, List.mem_cons_self, rfl⟩
        · obtain ⟨s, h1, h2⟩ := o.all x d ((set_other _ _ he).symm.trans hx)
          exact ⟨s, List.mem_cons_of_mem _ h1, h2⟩
      · rw [List.map_cons, List.nodup_cons]
        refine ⟨?_, o.uniq⟩
        intro hm
        obtain ⟨⟨i, s⟩, h1, h2⟩ := List.mem_map.1 hm
        have := (o.own i s h1).2.1
        simp only at h2
        omega
    | @reads i s size k hs =>
      have ok := o.keep (read_opening sys w.os s size k)
      have hh : (read sys w.os s size k).2.2.2.handle = s.handle := by
        unfold read
        split <;> rfl
      refine ⟨?_, ?_, ?_⟩
      · intro j t ht
        rcases List.mem_cons.1 ht with e | ht
        · cases e
          rw [hh]
          exact ok.own i s hs
        · exact ok.own j t (List.mem_filter.1 ht).1
      · intro x d hx
        obtain ⟨t, h1, h2⟩ := ok.all x d hx
        by_cases he : d.opening = i
        · rw [he] at h1 ⊢
          have := o.same h1 hs
          subst this
          exact ⟨_, List.mem_cons_self, hh.trans h2⟩
        · exact ⟨t, List.mem_cons_of_mem _ (List.mem_filter.2 ⟨h1, by simpa using he⟩), h2⟩
      · rw [List.map_cons, List.nodup_cons]
        refine ⟨?_, (o.uniq.sublist (List.filter_sublist.map _))⟩
        intro hm
        obtain ⟨x, h1, h2⟩ := List.mem_map.1 hm
        have := (List.mem_filter.1 h1).2
        simp only [ne_eq, decide_not, Bool.not_eq_eq_eq_not, Bool.not_true, decide_eq_false_iff_not] at this
        exact this h2
    | writes hs => exact o.keep (write_opening sys w.os _ _ _)
    | seeks hs => exact o.keep (seek_opening sys w.os _ _ _)
    | @ends i s hs =>
      obtain ⟨h0, _, d, hd, hi⟩ := o.own i s hs
      have e : destroy w.os s = osClose w.os s.handle := by unfold destroy close; rw [if_pos h0]
      rw [e]
      refine ⟨?_, ?_, o.uniq.sublist (List.filter_sublist.map _)⟩
      · intro j t ht
        obtain ⟨h1, h2⟩ := List.mem_filter.1 ht
        have hne : j ≠ i := by simpa using h2
        obtain ⟨h3, h4, d', h5, h6⟩ := o.own j t h1
        exact ⟨h3, h4, d', (set_other _ _ (o.handles h1 hs hne)).trans h5, h6⟩
      · intro x d' hx
        have hne : x ≠ s.handle := by
          rintro rfl
          have := (set_self w.os.opened s.handle none).symm.trans hx
          cases this
        have hx' : w.os.opened x = some d' := (set_other _ _ hne).symm.trans hx
        obtain ⟨t, h1, h2⟩ := o.all x d' hx'
        refine ⟨t, List.mem_filter.2 ⟨h1, ?_⟩, h2⟩
        have : d'.opening ≠ i := by
          intro he
          rw [he] at h1
          have := o.same h1 hs
          subst this
          exact hne h2.symm
        simpa using this

/-- C144: in every program that ends its streams but does not call `close`: every stream reaches the file it was opened for, no
two streams share a handle, and every open file belongs to a stream that has not ended; so nothing stays open when all have
ended.  Missing: calls of `close`, the handle 0. -/
theorem handles_partial {sys : Sys} {w : World} (h : Reach sys w) :
    (∀ i s, (i, s) ∈ w.streams → ∃ d, w.os.opened s.handle = some d ∧ d.opening = i) ∧
    (∀ i s j t, (i, s) ∈ w.streams → (j, t) ∈ w.streams → i ≠ j → s.handle ≠ t.handle) ∧
    (∀ x d, w.os.opened x = some d → ∃ s, (d.opening, s) ∈ w.streams) ∧
    (w.streams = [] → ∀ x, w.os.opened x = none) := by
  have o := owned h
  refine ⟨fun i s hs => (o.own i s hs).2.2, fun i s j t hs ht hne => o.handles hs ht hne, fun x d hx => ?_, fun hn x => ?_⟩
  · obtain ⟨s, h1, _⟩ := o.all x d hx
    exact ⟨s, h1⟩
  · cases hx : w.os.opened x with
    | none => rfl
    | some d =>
      obtain ⟨s, h1, _⟩ := o.all x d hx
      rw [hn] at h1
      simp at h1

/-- C144: no stream moves or closes what another one has open. -/
theorem others_partial {sys : Sys} {w : World} (h : Reach sys w) {i j : Nat} {s t : Stream} (hs : (i, s) ∈ w.streams)
    (ht : (j, t) ∈ w.streams) (hne : i ≠ j) (size : Nat) (data : List Nat) (k : Option Nat) (dir : Dir) (off : Int) :
    (read sys w.os s size k).2.2.1.opened t.handle = w.os.opened t.handle ∧
    (write sys w.os s data k).opened t.handle = w.os.opened t.handle ∧
    (seek sys w.os s dir off).2.opened t.handle = w.os.opened t.handle ∧
    (destroy w.os s).opened t.handle = w.os.opened t.handle := by
  have hh := (owned h).handles ht hs (Ne.symm hne)
  refine ⟨?_, ?_, ?_, ?_⟩
  · unfold read basicRead osRead
    split
    · rfl
    · dsimp only
      cases w.os.opened s.handle with
      | none => rfl
      | some d => cases k with
        | none => rfl
        | some k => exact set_other _ _ hh
  · unfold write osWrite
    cases w.os.opened s.handle with
    | none => rfl
    | some d => cases k with
      | none => rfl
      | some k =>
        dsimp only
        split
        · rfl
        · exact set_other _ _ hh
  · have key : ∀ sys, (osSeek sys w.os s.handle dir off).2.opened t.handle = w.os.opened t.handle := by
      intro sys
      unfold osSeek
      cases w.os.opened s.handle with
      | none => rfl
      | some d =>
        dsimp only
        split
        · rfl
        · exact set_other _ _ hh
    unfold seek
    cases sys with
    | posix =>
      have := key .posix
      dsimp only
      cases h : osSeek .posix w.os s.handle dir off with
      | mk a b => rw [h] at this; cases a <;> exact this
    | windows => exact key .windows
  · unfold destroy close osClose
    split
    · exact set_other _ _ hh
    · rfl

/-- Two files open. -/
def world2 : World :=
  let o1 := openFile ⟨fun _ => [1, 2], fun _ => none⟩ 0 3 0
  let o2 := openFile o1.1 1 4 1
  ⟨o2.1, [(1, o2.2), (0, o1.2)], 2⟩

theorem world2_reach : Reach .posix world2 :=
  .step (.step .start (.opens (file := 0) (h := 3) rfl (by decide))) (.opens (file := 1) (h := 4) rfl (by decide))

example : (destroy world2.os ⟨3, []⟩).opened 4 = world2.os.opened 4 :=
  (others_partial world2_reach (i := 0) (j := 1) (s := ⟨3, []⟩) (t := ⟨4, []⟩) (by decide) (by decide) (by decide) 0 [] none .beg 0).2.2.2

/-- C144 is false with `close`: the handle stays in the stream, and the system may give it to the next file.  The end of the
first stream then closes the second file, and what is written to the first one arrives in the second. -/
theorem close_refuted :
    let o1 := openFile ⟨fun _ => [], fun _ => none⟩ 0 3 0
    let closed := close o1.1 o1.2
    let o2 := openFile closed 1 3 1
    closed.opened 3 = none ∧ (destroy o2.1 o1.2).opened o2.2.handle = none ∧
      (write .posix o2.1 o1.2 [7] (some 1)).files 1 = [7] := by
  refine ⟨rfl, rfl, ?_⟩
  decide +kernel

/-- C144 is false for the handle 0, which the system gives when standard input was closed: the end of the stream leaves the file
open. -/
theorem zero_handle_refuted :
    let o := openFile ⟨fun _ => [], fun _ => none⟩ 0 0 0
    (destroy o.1 o.2).opened 0 = some ⟨0, 0, 0⟩ := rfl

end ELC.File
