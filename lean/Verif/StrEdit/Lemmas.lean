import Verif.Str.Lemmas
import Verif.StrEdit.Model
import Verif.StrEdit.Spec
namespace ELC.StrEdit
open Hash Str Str.Spec Spec
set_option linter.unusedSectionVars false
variable {A : Type} [Inhabited A]

/-! ### Buffers -/

theorem overwrite_ok {m xs : List A} {i : Nat} (h : i + xs.length ≤ m.length) :
    overwrite m i xs = some (m.take i ++ xs ++ m.drop (i + xs.length)) := by
  rw [overwrite, if_pos h]

theorem overwrite_get {m xs : List A} {i : Nat} (h : i + xs.length ≤ m.length) :
    ∃ m', overwrite m i xs = some m' ∧ m'.length = m.length ∧
      ∀ j, m'[j]? = if i ≤ j ∧ j < i + xs.length then xs[j - i]? else m[j]? := by
  refine ⟨_, overwrite_ok h, by simp; omega, fun j => ?_⟩
  simp only [List.getElem?_append, List.getElem?_take, List.getElem?_drop, List.length_append,
    List.length_take]
  grind

theorem memmove_get {m : List A} {d s n : Nat} (h : d + n ≤ m.length) (h' : s + n ≤ m.length) :
    ∃ m', memmove m d s n = some m' ∧ m'.length = m.length ∧
      ∀ j, m'[j]? = if d ≤ j ∧ j < d + n then m[s + (j - d)]? else m[j]? := by
  have hl : ((m.drop s).take n).length = n := by simp; omega
  obtain ⟨m', e, l, g⟩ := overwrite_get (m := m) (xs := (m.drop s).take n) (i := d) (by omega)
  refine ⟨m', ?_, l, fun j => ?_⟩
  · rw [memmove, slice, if_pos h', Option.bind_some, e]
  · rw [g, hl, List.getElem?_take, List.getElem?_drop]
    split
    · rw [if_pos (by omega)]
    · rfl

theorem realloc_length (m : List A) (n : Nat) : (realloc m n).length = n := by
  simp [realloc, blank]; omega

theorem getElem?_realloc {m : List A} {T i : Nat} (hi : i < m.length) (hT : i < T) :
    (realloc m T)[i]? = m[i]? := by
  simp only [realloc, List.getElem?_append, List.length_take, List.getElem?_take]
  rw [if_pos (by omega), if_pos hT]

theorem realloc_take {m : List A} {n u : Nat} (h : u ≤ m.length) (hn : u ≤ n) :
    (realloc m n).take u = m.take u := by
  simp only [realloc]
  rw [List.take_append_of_le_length (by simp; omega), List.take_take]
  congr 1; omega

/-- Position by position, what a text with another text put in looks like. -/
theorem insert_get {l ins : List A} {pos i : Nat} (hp : pos ≤ l.length) :
    (l.take pos ++ ins ++ l.drop pos)[i]? =
      if i < pos then l[i]? else if i < pos + ins.length then ins[i - pos]?
      else l[i - ins.length]? := by
  simp only [List.getElem?_append, List.getElem?_take, List.getElem?_drop, List.length_append,
    List.length_take]
  grind

theorem partUsedInsert_ok {m ins : List A} {pos T u : Nat} (hu : u ≤ m.length) (hp : pos ≤ u)
    (hT : u + ins.length ≤ T) :
    ∃ m', partUsedInsert m pos ins T u = some m' ∧ m'.length = T ∧
      m'.take (u + ins.length) = (m.take u).take pos ++ ins ++ (m.take u).drop pos := by
  have hl := realloc_length m T
  have ht : ∀ i, i < u → (realloc m T)[i]? = m[i]? :=
    fun i hi => getElem?_realloc (by omega) (by omega)
  simp only [partUsedInsert]
  generalize realloc m T = M at hl ht
  obtain ⟨m2, e2, l2, g2⟩ := memmove_get (m := M) (d := pos + ins.length) (s := pos) (n := u - pos)
    (by omega) (by omega)
  obtain ⟨m3, e3, l3, g3⟩ := overwrite_get (m := m2) (xs := ins) (i := pos) (by omega)
  refine ⟨m3, by rw [e2, Option.bind_some, e3], by omega, ?_⟩
  apply List.ext_getElem?
  intro i
  rw [insert_get (by simp; omega), List.getElem?_take, g3, g2, List.getElem?_take, List.getElem?_take]
  split_ifs <;> first | omega | rfl | (rw [ht _ (by omega)]; try (congr 1; omega))

theorem partUsedInsertForward_ok {m ins : List A} {pos T u : Nat} (hu : u ≤ m.length) (hp : pos ≤ u)
    (hT : u + ins.length ≤ T) (hm : m.length ≤ T) :
    ∃ m', partUsedInsertForward m (m.length - u + pos) ins T u = some m' ∧
      u + ins.length ≤ m'.length ∧
      m'.drop (m'.length - (u + ins.length)) =
        (m.drop (m.length - u)).take pos ++ ins ++ (m.drop (m.length - u)).drop pos := by
  simp only [partUsedInsertForward]
  split
  · rename_i h0
    have : ins = [] := List.length_eq_zero_iff.mp h0
    subst this
    exact ⟨m, rfl, by simpa using hu, by rw [List.append_nil, List.take_append_drop]; simp⟩
  rename_i h0
  have hl := realloc_length m T
  have ht : ∀ i, i < m.length → (realloc m T)[i]? = m[i]? := fun i hi => getElem?_realloc hi (by omega)
  generalize realloc m T = M at hl ht
  have a1 : m.length - u + pos - (m.length - u) = pos := by omega
  have a2 : m.length - (m.length - u + pos) = u - pos := by omega
  rw [a1, a2]
  obtain ⟨m2, e2, l2, g2⟩ := memmove_get (m := M) (d := T - (u + ins.length) + pos + ins.length)
    (s := m.length - u + pos) (n := u - pos) (by omega) (by omega)
  obtain ⟨m3, e3, l3, g3⟩ := memmove_get (m := m2) (d := T - (u + ins.length))
    (s := m.length - u) (n := pos) (by omega) (by omega)
  obtain ⟨m4, e4, l4, g4⟩ := overwrite_get (m := m3) (xs := ins) (i := T - (u + ins.length) + pos)
    (by omega)
  refine ⟨m4, by rw [e2, Option.bind_some, e3, Option.bind_some, e4], by omega, ?_⟩
  apply List.ext_getElem?
  intro i
  rw [insert_get (by simp; omega), List.getElem?_drop, g4, g3, g2, g2, List.getElem?_drop, List.getElem?_drop,
    show m4.length = T by omega]
  split_ifs <;> first
    | omega | (rw [ht _ (by omega)]; congr 1; omega) | (congr 1; omega)
    | rw [List.getElem?_eq_none (by omega), List.getElem?_eq_none (by omega)]

theorem appendBuf_ok {gold : Nat → Nat} (hg : ∀ n, n ≤ gold n) {m str : List A} {ts u : Nat}
    (hu : u ≤ m.length) :
    ∃ m', appendBuf gold m ts u str = some m' ∧ u + str.length ≤ m'.length ∧
      m'.take (u + str.length) = m.take u ++ str := by
  rw [appendBuf]
  split
  · rw [overwrite_ok (by omega)]
    refine ⟨_, rfl, by simp; omega, ?_⟩
    rw [List.take_append_of_le_length (by simp; omega), List.take_of_length_le (by simp [hu])]
  · have := hg (u + ts + str.length)
    obtain ⟨m', e, hl, ht⟩ := partUsedInsert_ok (ins := str) (T := gold (u + ts + str.length)) hu (Nat.le_refl u) (by omega)
    refine ⟨m', e, by omega, ?_⟩
    rw [ht, List.take_of_length_le (by simp), List.drop_eq_nil_of_le (by simp), List.append_nil]

theorem prependBuf_ok {gold : Nat → Nat} (hg : ∀ n, n ≤ gold n) {m str : List A} {ts u : Nat}
    (hu : u ≤ m.length) :
    ∃ m', prependBuf gold m ts u str = some m' ∧ u + str.length ≤ m'.length ∧
      m'.drop (m'.length - (u + str.length)) = str ++ m.drop (m.length - u) := by
  simp only [prependBuf]
  split
  · obtain ⟨m2, e2, l2, g2⟩ := overwrite_get (m := m) (xs := str) (i := m.length - u - str.length) (by omega)
    refine ⟨m2, e2, by omega, ?_⟩
    apply List.ext_getElem?
    intro i
    rw [List.getElem?_drop, g2, List.getElem?_append, List.getElem?_drop, l2]
    split_ifs <;> first | omega | (congr 1; omega)
  · have := hg (u + ts + str.length)
    obtain ⟨m', e, hl, ht⟩ := partUsedInsertForward_ok (ins := str) (T := gold (u + ts + str.length)) hu (Nat.zero_le u) (by omega) (by omega)
    refine ⟨m', e, by omega, ?_⟩
    rw [ht]; simp

theorem endInsertBuf_ok {gold : Nat → Nat} (hg : ∀ n, n ≤ gold n) {m str : List A} {ts u pos : Nat}
    (hu : u ≤ m.length) (hp : pos ≤ u) (hs : m.length < u + str.length ∨ u ≤ pos + str.length) :
    ∃ m', endInsertBuf gold m ts u pos str = some m' ∧ u + str.length ≤ m'.length ∧
      m'.take (u + str.length) = (m.take u).take pos ++ str ++ (m.take u).drop pos := by
  rw [endInsertBuf]
  split
  · rw [memcpy, if_pos (by omega)]
    obtain ⟨m2, e2, l2, g2⟩ := memmove_get (m := m) (d := pos + str.length) (s := pos) (n := u - pos)
      (by omega) (by omega)
    obtain ⟨m3, e3, l3, g3⟩ := overwrite_get (m := m2) (xs := str) (i := pos) (by omega)
    refine ⟨m3, by rw [e2, Option.bind_some, e3], by omega, ?_⟩
    apply List.ext_getElem?
    intro i
    rw [insert_get (by simp; omega), List.getElem?_take, g3, g2, List.getElem?_take, List.getElem?_take]
    split_ifs <;> first | omega | rfl | (congr 1; omega)
  · have := hg (u + ts + str.length)
    obtain ⟨m', e, hl, ht⟩ := partUsedInsert_ok (ins := str) (T := gold (u + ts + str.length)) hu hp (by omega)
    exact ⟨m', e, by omega, ht⟩

theorem headInsertBuf_ok {gold : Nat → Nat} (hg : ∀ n, n ≤ gold n) {m str : List A} {ts u pos : Nat}
    (hu : u ≤ m.length) (hp : pos ≤ u) (hs : m.length < u + str.length ∨ pos ≤ str.length) :
    ∃ m', headInsertBuf gold m ts u pos str = some m' ∧ u + str.length ≤ m'.length ∧
      m'.drop (m'.length - (u + str.length)) =
        (m.drop (m.length - u)).take pos ++ str ++ (m.drop (m.length - u)).drop pos := by
  simp only [headInsertBuf]
  split
  · rw [memcpy, if_pos (by omega)]
    obtain ⟨m2, e2, l2, g2⟩ := memmove_get (m := m) (d := m.length - u - str.length) (s := m.length - u) (n := pos)
      (by omega) (by omega)
    obtain ⟨m3, e3, l3, g3⟩ := overwrite_get (m := m2) (xs := str) (i := m.length - u - str.length + pos) (by omega)
    refine ⟨m3, by rw [e2, Option.bind_some, e3], by omega, ?_⟩
    apply List.ext_getElem?
    intro i
    rw [insert_get (by simp; omega), List.getElem?_drop, g3, g2, List.getElem?_drop, List.getElem?_drop, l3, l2]
    split_ifs <;> first | omega | (congr 1; omega)
  · have := hg (u + ts + str.length)
    exact partUsedInsertForward_ok (ins := str) (T := gold (u + ts + str.length)) hu hp (by omega) (by omega)

/-! ### Nodes -/

/-- An edit has a result, the result is in order and has these characters. -/
def Gives (hc : A → Word) (r : Option (Node A)) (l : List A) : Prop :=
  ∃ n, r = some n ∧ WF hc n ∧ chars n = l

theorem Gives.mk {hc : A → Word} {n : Node A} {l : List A} (w : WF hc n) (e : chars n = l) :
    Gives hc (some n) l := ⟨n, rfl, w, e⟩

theorem Gives.map {hc : A → Word} {r : Option (Node A)} {l l' : List A} {f : Node A → Node A}
    (g : Gives hc r l) (h : ∀ n, WF hc n → chars n = l → WF hc (f n) ∧ chars (f n) = l') :
    Gives hc (r.map f) l' := by
  obtain ⟨n, rfl, w, e⟩ := g
  exact ⟨f n, rfl, h n w e⟩

theorem Gives.bind {hc : A → Word} {r : Option (Node A)} {l l' : List A} {f : Node A → Option (Node A)}
    (g : Gives hc r l) (h : ∀ n, WF hc n → chars n = l → Gives hc (f n) l') :
    Gives hc (r.bind f) l' := by
  obtain ⟨n, rfl, w, e⟩ := g
  exact h n w e

theorem cacheOk_changed (hc : A → Word) (l : List A) : CacheOk hc changed l := cacheOk_fresh hc l

theorem endChanged_ok {hc : A → Word} {gold : Nat → Nat} (hg : ∀ n, n ≤ gold n) :
    ∀ (t : Node A) (m : List A) (ts u : Nat), WF hc t → ts = (chars t).length → u ≤ m.length →
      Gives hc (endChanged gold m t ts u) (chars t ++ m.take u) := by
  intro t
  induction t with
  | endA h m' t' ts' u' ih =>
    intro m ts u w e hu
    rw [endChanged]
    split
    · rw [slice_ok (by omega), Option.bind_some]
      obtain ⟨m'', e1, l1, t1⟩ := appendBuf_ok hg (str := part m 0 u) (ts := ts') w.2.2.1
      rw [length_part (by omega)] at l1 t1
      rw [e1, Option.bind_some]
      have := ih m'' ts' (u' + u) w.1 w.2.1 l1
      rw [t1] at this
      simpa [chars, part] using this
    · exact .mk ⟨w, e, hu, cacheOk_changed _ _⟩ rfl
  | _ => intro m ts u w e hu; exact .mk ⟨w, e, hu, cacheOk_changed _ _⟩ rfl

theorem headChanged_ok {hc : A → Word} {gold : Nat → Nat} (hg : ∀ n, n ≤ gold n) :
    ∀ (t : Node A) (m : List A) (ts u : Nat), WF hc t → ts = (chars t).length → u ≤ m.length →
      Gives hc (headChanged gold m t ts u) (m.drop (m.length - u) ++ chars t) := by
  intro t
  induction t with
  | head h m' t' ts' u' ih =>
    intro m ts u w e hu
    rw [headChanged]
    split
    · rw [slice_ok (by omega), Option.bind_some]
      obtain ⟨m'', e1, l1, t1⟩ := prependBuf_ok hg (str := part m (m.length - u) u) (ts := ts') w.2.2.1
      rw [length_part (by omega)] at l1 t1
      rw [e1, Option.bind_some]
      have := ih m'' ts' (u' + u) w.1 w.2.1 l1
      rw [t1] at this
      have e2 : part m (m.length - u) u = m.drop (m.length - u) := by
        rw [part, List.take_of_length_le (by simp; omega)]
      rw [e2] at this
      simpa [chars] using this
    · exact .mk ⟨w, e, hu, cacheOk_changed _ _⟩ rfl
  | _ => intro m ts u w e hu; exact .mk ⟨w, e, hu, cacheOk_changed _ _⟩ rfl

theorem mkEnd_ok {hc : A → Word} {gold : Nat → Nat} (hg : ∀ n, n ≤ gold n) {n : Node A} (w : WF hc n)
    (str : List A) : Gives hc (mkEnd gold n str) (chars n ++ str) := by
  have := hg (n.size + str.length)
  rw [mkEnd, overwrite_ok (by simp [blank]; omega), Option.map_some]
  refine .mk ⟨w, size_eq hc n w, by simp, cacheOk_fresh _ _⟩ ?_
  simp [chars]

theorem mkHead_ok {hc : A → Word} {gold : Nat → Nat} (hg : ∀ n, n ≤ gold n) {n : Node A} (w : WF hc n)
    (str : List A) : Gives hc (mkHead gold n str) (str ++ chars n) := by
  have := hg (n.size + str.length)
  simp only [mkHead]
  rw [overwrite_ok (by simp [blank]; omega), Option.map_some]
  refine .mk ⟨w, size_eq hc n w, by simp; omega, cacheOk_fresh _ _⟩ ?_
  simp only [chars, blank]
  congr 1
  rw [List.drop_eq_nil_of_le (as := List.replicate _ _) (by simp; omega), List.append_nil, List.drop_append_of_le_length (by simp), List.drop_of_length_le (by simp)]
  simp

theorem baseEndV_ok {hc : A → Word} {gold : Nat → Nat} (hg : ∀ n, n ≤ gold n) {n : Node A} (w : WF hc n)
    (str : List A) : Gives hc (baseEndV gold n str) (chars n ++ str) := by
  rw [baseEndV]
  split
  · exact mkEnd_ok hg w str
  · rename_i h
    rw [List.length_eq_zero_iff.mp (by omega : str.length = 0), List.append_nil]
    exact .mk w rfl

theorem baseBeginV_ok {hc : A → Word} {gold : Nat → Nat} (hg : ∀ n, n ≤ gold n) {n : Node A} (w : WF hc n)
    (str : List A) : Gives hc (baseBeginV gold n str) (str ++ chars n) := by
  rw [baseBeginV]
  split
  · exact mkHead_ok hg w str
  · rename_i h
    rw [List.length_eq_zero_iff.mp (by omega : str.length = 0), List.nil_append]
    exact .mk w rfl

theorem mkSum_ok {hc : A → Word} {x y : Node A} (wx : WF hc x) (wy : WF hc y) :
    Gives hc (some (mkSum x y)) (chars x ++ chars y) := by
  have ex := size_eq hc x wx
  have ey := size_eq hc y wy
  rw [mkSum]
  split
  · rename_i h
    rw [List.length_eq_zero_iff.mp (by omega : (chars x).length = 0)]
    exact .mk wy rfl
  split
  · rename_i h
    rw [List.length_eq_zero_iff.mp (by omega : (chars y).length = 0)]
    exact .mk wx (by simp)
  · exact .mk ⟨wx, wy, ex, ey, cacheOk_fresh _ _⟩ rfl

theorem erased_append {l x : List A} {p s : Nat} (h : p + s ≤ l.length) :
    (l ++ x).take p ++ (l ++ x).drop (p + s) = l.take p ++ l.drop (p + s) ++ x := by
  rw [List.take_append_of_le_length (by omega), List.drop_append_of_le_length h, List.append_assoc]

theorem erased_prepend {l x : List A} {p s : Nat} :
    (x ++ l).take (p + x.length) ++ (x ++ l).drop (p + x.length + s) = x ++ (l.take p ++ l.drop (p + s)) := by
  rw [Nat.add_comm p, List.take_length_add_append, Nat.add_assoc, List.drop_length_add_append, List.append_assoc]

theorem substr_append {l x : List A} {b s : Nat} (h : b + s = l.length) :
    ((l ++ x).drop b).take (s + x.length) = (l.drop b).take s ++ x := by
  rw [List.drop_append_of_le_length (by omega), List.take_of_length_le (by simp; omega),
    List.take_of_length_le (by simp; omega)]

theorem endV_ok {hc : A → Word} {gold : Nat → Nat} (hg : ∀ n, n ≤ gold n) (str : List A) :
    ∀ n : Node A, WF hc n → Gives hc (endV gold n str) (chars n ++ str) := by
  intro n
  induction n with
  | null => intro w; exact .mk (cacheOk_fresh _ _) (by simp [chars])
  | comn h m => intro w; exact baseEndV_ok hg w str
  | const h m => intro w; exact baseEndV_ok hg w str
  | same h s v => intro w; exact baseEndV_ok hg w str
  | substr h t b s ih =>
    intro w
    rw [endV]
    split
    · rename_i hu
      rw [size_eq hc t w.1] at hu
      refine (ih w.1).map fun n wn en => ⟨⟨wn, ?_, cacheOk_changed _ _⟩, ?_⟩
      · rw [en]; simp; omega
      · rw [chars, en, substr_append hu.2, chars]
    · exact baseEndV_ok hg w str
  | head h m t ts u ih =>
    intro w
    rw [endV]
    split
    · refine (ih w.1).bind fun n wn en => ?_
      have := headChanged_ok hg (hc := hc) n m (ts + str.length) u wn (by rw [en, w.2.1]; simp) w.2.2.1
      rw [en] at this
      simpa [chars] using this
    · exact baseEndV_ok hg w str
  | endA h m t ts u ih =>
    intro w
    rw [endV]
    split
    · obtain ⟨m', e1, l1, t1⟩ := appendBuf_ok hg (str := str) (ts := ts) w.2.2.1
      rw [e1, Option.bind_some]
      have := endChanged_ok hg (hc := hc) t m' ts (u + str.length) w.1 w.2.1 l1
      rw [t1] at this
      simpa [chars] using this
    · exact baseEndV_ok hg w str
  | sum h x y xs ys ihx ihy =>
    intro w
    rw [endV]
    split
    · refine (ihy w.2.1).map fun n wn en => ⟨⟨w.1, wn, w.2.2.1, ?_, cacheOk_changed _ _⟩, ?_⟩
      · rw [en, w.2.2.2.1]; simp
      · simp [chars, en]
    · exact baseEndV_ok hg w str
  | erased h t ts p sz ih =>
    intro w
    rw [endV]
    split
    · refine (ih w.1).map fun n wn en => ⟨⟨wn, ?_, ?_, cacheOk_changed _ _⟩, ?_⟩
      · rw [en, w.2.1]; simp
      · have := w.2.2.1; rw [en]; simp; omega
      · rw [chars, en, erased_append w.2.2.1, chars]
    · exact baseEndV_ok hg w str
  | inserted h t i ts p sz iht ihi =>
    intro w
    have wt := w.2.2.1
    rw [endV]
    split
    · split
      · rename_i hp
        refine (ihi w.2.1).map fun n wn en => ⟨⟨w.1, wn, wt, ?_, w.2.2.2.2.1, cacheOk_changed _ _⟩, ?_⟩
        · rw [en, w.2.2.2.1]; simp
        · rw [chars, en, chars, hp, wt]; simp
      · refine (iht w.1).map fun n wn en => ⟨⟨wn, w.2.1, ?_, w.2.2.2.1, ?_, cacheOk_changed _ _⟩, ?_⟩
        · rw [en, wt]; simp
        · have := w.2.2.2.2.1; rw [en]; simp; omega
        · have := w.2.2.2.2.1
          rw [chars, en, chars, List.take_append_of_le_length this, List.drop_append_of_le_length this]; simp
    · exact baseEndV_ok hg w str

theorem beginV_ok {hc : A → Word} {gold : Nat → Nat} (hg : ∀ n, n ≤ gold n) (str : List A) :
    ∀ n : Node A, WF hc n → Gives hc (beginV gold n str) (str ++ chars n) := by
  intro n
  induction n with
  | null => intro w; exact .mk (cacheOk_fresh _ _) (by simp [chars])
  | comn h m => intro w; exact baseBeginV_ok hg w str
  | const h m => intro w; exact baseBeginV_ok hg w str
  | same h s v => intro w; exact baseBeginV_ok hg w str
  | substr h t b s ih =>
    intro w
    rw [beginV]
    split
    · rename_i hu
      have h1 := w.2.1
      refine (ih w.1).map fun n wn en => ⟨⟨wn, ?_, cacheOk_changed _ _⟩, ?_⟩
      · rw [en]; simp; omega
      · rw [chars, en, chars, hu.2, Nat.add_comm s]; simp [List.take_length_add_append]
    · exact baseBeginV_ok hg w str
  | head h m t ts u ih =>
    intro w
    rw [beginV]
    split
    · obtain ⟨m', e1, l1, t1⟩ := prependBuf_ok hg (str := str) (ts := ts) w.2.2.1
      rw [e1, Option.bind_some]
      have := headChanged_ok hg (hc := hc) t m' ts (u + str.length) w.1 w.2.1 l1
      rw [t1] at this
      simpa [chars] using this
    · exact baseBeginV_ok hg w str
  | endA h m t ts u ih =>
    intro w
    rw [beginV]
    split
    · refine (ih w.1).bind fun n wn en => ?_
      have := endChanged_ok hg (hc := hc) n m (ts + str.length) u wn (by rw [en, w.2.1]; simp; omega) w.2.2.1
      rw [en] at this
      simpa [chars] using this
    · exact baseBeginV_ok hg w str
  | sum h x y xs ys ihx ihy =>
    intro w
    rw [beginV]
    split
    · refine (ihx w.1).map fun n wn en => ⟨⟨wn, w.2.1, ?_, w.2.2.2.1, cacheOk_changed _ _⟩, ?_⟩
      · rw [en, w.2.2.1]; simp; omega
      · simp [chars, en]
    · exact baseBeginV_ok hg w str
  | erased h t ts p sz ih =>
    intro w
    rw [beginV]
    split
    · refine (ih w.1).map fun n wn en => ⟨⟨wn, ?_, ?_, cacheOk_changed _ _⟩, ?_⟩
      · rw [en, w.2.1]; simp; omega
      · have := w.2.2.1; rw [en]; simp; omega
      · rw [chars, en, erased_prepend, chars]
    · exact baseBeginV_ok hg w str
  | inserted h t i ts p sz iht ihi =>
    intro w
    have wt := w.2.2.1
    rw [beginV]
    split
    · split
      · rename_i hp
        refine (ihi w.2.1).map fun n wn en => ⟨⟨w.1, wn, wt, ?_, w.2.2.2.2.1, cacheOk_changed _ _⟩, ?_⟩
        · rw [en, w.2.2.2.1]; simp; omega
        · rw [chars, en, chars, hp]; simp
      · refine (iht w.1).map fun n wn en => ⟨⟨wn, w.2.1, ?_, w.2.2.2.1, ?_, cacheOk_changed _ _⟩, ?_⟩
        · rw [en, wt]; simp; omega
        · have := w.2.2.2.2.1; rw [en]; simp; omega
        · rw [chars, en, chars, Nat.add_comm p, List.take_length_add_append, List.drop_length_add_append]; simp
    · exact baseBeginV_ok hg w str

theorem realloc_used {m : List A} {u : Nat} (h : u ≤ m.length) : (realloc m u).take u = m.take u :=
  realloc_take h (Nat.le_refl u)

theorem endP_ok {hc : A → Word} {gold : Nat → Nat} (hg : ∀ n, n ≤ gold n) {str : Node A} (ws : WF hc str) :
    ∀ n : Node A, WF hc n → Gives hc (endP gold n str) (chars n ++ chars str) := by
  have es := size_eq hc str ws
  intro n
  induction n with
  | null => intro w; exact .mk ws (by simp [chars])
  | comn h m => intro w; exact mkSum_ok w ws
  | const h m => intro w; exact mkSum_ok w ws
  | same h s v => intro w; exact mkSum_ok w ws
  | substr h t b s ih =>
    intro w
    rw [endP]
    split
    · rename_i hu
      rw [size_eq hc t w.1] at hu
      refine (ih w.1).map fun n wn en => ⟨⟨wn, ?_, cacheOk_changed _ _⟩, ?_⟩
      · rw [en]; simp; omega
      · rw [chars, en, es, substr_append hu.2, chars]
    · exact mkSum_ok w ws
  | head h m t ts u ih =>
    intro w
    rw [endP]
    split
    · refine (ih w.1).bind fun n wn en => ?_
      have := headChanged_ok hg (hc := hc) n m (ts + str.size) u wn (by rw [en, w.2.1, es]; simp) w.2.2.1
      rw [en] at this
      simpa [chars] using this
    · exact mkSum_ok w ws
  | endA h m t ts u ih =>
    intro w
    rw [endP]
    have e : chars (.endA h (realloc m u) t ts u) = chars (.endA h m t ts u) := by
      rw [chars, chars, realloc_used w.2.2.1]
    rw [← e]
    exact mkSum_ok ⟨w.1, w.2.1, by rw [realloc_length], by rw [e]; exact w.2.2.2⟩ ws
  | sum h x y xs ys ihx ihy =>
    intro w
    rw [endP]
    split
    · refine (ihy w.2.1).map fun n wn en => ⟨⟨w.1, wn, w.2.2.1, ?_, cacheOk_changed _ _⟩, ?_⟩
      · rw [en, w.2.2.2.1, es]; simp
      · simp [chars, en]
    · exact mkSum_ok w ws
  | erased h t ts p sz ih =>
    intro w
    rw [endP]
    split
    · refine (ih w.1).map fun n wn en => ⟨⟨wn, ?_, ?_, cacheOk_changed _ _⟩, ?_⟩
      · rw [en, w.2.1, es]; simp
      · have := w.2.2.1; rw [en]; simp; omega
      · rw [chars, en, erased_append w.2.2.1, chars]
    · exact mkSum_ok w ws
  | inserted h t i ts p sz iht ihi =>
    intro w
    have wt := w.2.2.1
    rw [endP]
    split
    · split
      · rename_i hp
        refine (ihi w.2.1).map fun n wn en => ⟨⟨w.1, wn, wt, ?_, w.2.2.2.2.1, cacheOk_changed _ _⟩, ?_⟩
        · rw [en, w.2.2.2.1, es]; simp
        · rw [chars, en, chars, hp, wt]; simp
      · refine (iht w.1).map fun n wn en => ⟨⟨wn, w.2.1, ?_, w.2.2.2.1, ?_, cacheOk_changed _ _⟩, ?_⟩
        · rw [en, wt, es]; simp
        · have := w.2.2.2.2.1; rw [en]; simp; omega
        · have := w.2.2.2.2.1
          rw [chars, en, chars, List.take_append_of_le_length this, List.drop_append_of_le_length this]; simp
    · exact mkSum_ok w ws

theorem forwardCut_ok {m : List A} {u : Nat} (h : u ≤ m.length) :
    (forwardCut m u).length = u ∧ (forwardCut m u).drop ((forwardCut m u).length - u) = m.drop (m.length - u) := by
  have : (forwardCut m u).length = u := by simp [forwardCut]; omega
  exact ⟨this, by rw [this, Nat.sub_self, List.drop_zero, forwardCut]⟩

theorem beginP_ok {hc : A → Word} {gold : Nat → Nat} (hg : ∀ n, n ≤ gold n) {str : Node A} (ws : WF hc str) :
    ∀ n : Node A, WF hc n → Gives hc (beginP gold n str) (chars str ++ chars n) := by
  have es := size_eq hc str ws
  intro n
  induction n with
  | null => intro w; exact .mk ws (by simp [chars])
  | comn h m => intro w; exact mkSum_ok ws w
  | const h m => intro w; exact mkSum_ok ws w
  | same h s v => intro w; exact mkSum_ok ws w
  | substr h t b s ih =>
    intro w
    rw [beginP]
    split
    · rename_i hu
      have h1 := w.2.1
      refine (ih w.1).map fun n wn en => ⟨⟨wn, ?_, cacheOk_changed _ _⟩, ?_⟩
      · rw [en]; simp; omega
      · rw [chars, en, chars, hu.2, Nat.add_comm s, es]; simp [List.take_length_add_append]
    · exact mkSum_ok ws w
  | head h m t ts u ih =>
    intro w
    rw [beginP]
    obtain ⟨l, d⟩ := forwardCut_ok w.2.2.1
    have e : chars (.head h (forwardCut m u) t ts u) = chars (.head h m t ts u) := by
      rw [chars, chars, d]
    rw [← e]
    exact mkSum_ok ws ⟨w.1, w.2.1, by rw [l], by rw [e]; exact w.2.2.2⟩
  | endA h m t ts u ih =>
    intro w
    rw [beginP]
    split
    · refine (ih w.1).bind fun n wn en => ?_
      have := endChanged_ok hg (hc := hc) n m (ts + str.size) u wn (by rw [en, w.2.1, es]; simp; omega) w.2.2.1
      rw [en] at this
      simpa [chars] using this
    · exact mkSum_ok ws w
  | sum h x y xs ys ihx ihy =>
    intro w
    rw [beginP]
    split
    · refine (ihx w.1).map fun n wn en => ⟨⟨wn, w.2.1, ?_, w.2.2.2.1, cacheOk_changed _ _⟩, ?_⟩
      · rw [en, w.2.2.1, es]; simp; omega
      · simp [chars, en]
    · exact mkSum_ok ws w
  | erased h t ts p sz ih =>
    intro w
    rw [beginP]
    split
    · refine (ih w.1).map fun n wn en => ⟨⟨wn, ?_, ?_, cacheOk_changed _ _⟩, ?_⟩
      · rw [en, w.2.1, es]; simp; omega
      · have := w.2.2.1; rw [en]; simp; omega
      · rw [chars, en, es, erased_prepend, chars]
    · exact mkSum_ok ws w
  | inserted h t i ts p sz iht ihi =>
    intro w
    have wt := w.2.2.1
    rw [beginP]
    split
    · split
      · rename_i hp
        refine (ihi w.2.1).map fun n wn en => ⟨⟨w.1, wn, wt, ?_, w.2.2.2.2.1, cacheOk_changed _ _⟩, ?_⟩
        · rw [en, w.2.2.2.1, es]; simp; omega
        · rw [chars, en, chars, hp]; simp
      · refine (iht w.1).map fun n wn en => ⟨⟨wn, w.2.1, ?_, w.2.2.2.1, ?_, cacheOk_changed _ _⟩, ?_⟩
        · rw [en, wt, es]; simp; omega
        · have := w.2.2.2.2.1; rw [en]; simp; omega
        · rw [chars, en, chars, Nat.add_comm p, es, List.take_length_add_append, List.drop_length_add_append]; simp
    · exact mkSum_ok ws w

theorem preAllocEnd_ok {hc : A → Word} {n : Node A} (w : WF hc n) (k : Nat) :
    WF hc (preAllocEnd n k) ∧ chars (preAllocEnd n k) = chars n := by
  rw [preAllocEnd]
  split
  · exact ⟨⟨w, size_eq hc n w, Nat.zero_le _, cacheOk_fresh _ _⟩, by simp [chars]⟩
  · exact ⟨w, rfl⟩

theorem preAllocBegin_ok {hc : A → Word} {n : Node A} (w : WF hc n) (k : Nat) :
    WF hc (preAllocBegin n k) ∧ chars (preAllocBegin n k) = chars n := by
  rw [preAllocBegin]
  split
  · exact ⟨⟨w, size_eq hc n w, Nat.zero_le _, cacheOk_fresh _ _⟩, by simp [chars]⟩
  · exact ⟨w, rfl⟩

theorem insertP_ok {hc : A → Word} {n str : Node A} (w : WF hc n) (ws : WF hc str) {pos : Nat}
    (hp : pos ≤ (chars n).length) : Gives hc (insertP n pos str) (insertAt (chars n) pos (chars str)) := by
  cases n with
  | null => exact .mk ws (by simp [insertAt, chars])
  | _ => exact .mk ⟨w, ws, size_eq hc _ w, size_eq hc _ ws, hp, cacheOk_fresh _ _⟩ rfl

theorem baseInsertV_ok {hc : A → Word} {gold : Nat → Nat} (hg : ∀ n, n ≤ gold n) {n : Node A} (w : WF hc n)
    {pos : Nat} (str : List A) (hp : pos ≤ (chars n).length) :
    Gives hc (baseInsertV gold n pos str) (insertAt (chars n) pos str) := by
  rw [baseInsertV]
  split
  · rename_i h
    simpa [insertAt, h] using beginV_ok hg str n w
  split
  · rename_i h
    rw [size_eq hc n w] at h
    simpa [insertAt, h] using endV_ok hg str n w
  · exact insertP_ok (str := .comn fresh str) w (cacheOk_fresh _ _) hp

theorem insertAt_left {a b str : List A} {pos : Nat} (h : pos ≤ a.length) :
    insertAt (a ++ b) pos str = insertAt a pos str ++ b := by
  simp only [insertAt]
  rw [List.take_append_of_le_length h, List.drop_append_of_le_length h]; simp

theorem insertAt_right {a b str : List A} {pos : Nat} (h : a.length ≤ pos) :
    insertAt (a ++ b) pos str = a ++ insertAt b (pos - a.length) str := by
  obtain ⟨k, rfl⟩ := Nat.exists_eq_add_of_le h
  simp [insertAt, List.take_length_add_append]

theorem length_insertAt {a str : List A} {pos : Nat} (h : pos ≤ a.length) :
    (insertAt a pos str).length = a.length + str.length := by
  simp [insertAt]; omega

theorem insertV_ok {hc : A → Word} {gold : Nat → Nat} (hg : ∀ n, n ≤ gold n) (str : List A) :
    ∀ (n : Node A) (pos : Nat), WF hc n → pos ≤ (chars n).length → InsertSafe n pos str.length →
      Gives hc (insertV gold n pos str) (insertAt (chars n) pos str) := by
  intro n
  induction n with
  | null => intro pos w hp _; exact .mk (cacheOk_fresh _ _) (by simp [chars, insertAt])
  | comn h m => intro pos w hp _; exact baseInsertV_ok hg w str hp
  | const h m => intro pos w hp _; exact baseInsertV_ok hg w str hp
  | same h s v => intro pos w hp _; exact baseInsertV_ok hg w str hp
  | substr h t b s ih => intro pos w hp _; exact baseInsertV_ok hg w str hp
  | sum h x y xs ys ihx ihy => intro pos w hp _; exact baseInsertV_ok hg w str hp
  | erased h t ts p sz ih => intro pos w hp _; exact baseInsertV_ok hg w str hp
  | endA h m t ts u ih =>
    intro pos w hp hs
    have wt := w.2.1
    have wu := w.2.2.1
    have hp' : pos ≤ ts + u := by simpa [chars, ← wt, wu] using hp
    rw [insertV]
    split
    · rename_i h0
      simpa [insertAt, h0] using beginV_ok hg str _ w
    split
    · rename_i h0 h1
      have e : (chars (.endA h m t ts u)).length = pos := by simp [chars, ← wt]; omega
      simpa [insertAt, ← e] using endV_ok hg str _ w
    split
    · rename_i h0 h1 h2
      split
      · rename_i h3
        rcases hs with hs | hs | hs | hs | hs
        · exact absurd hs h0
        · exact absurd hs h1
        · simp [hs] at h2
        · have hu0 := hs.2.1
          subst hu0
          rw [wsub_eq (Nat.zero_le _), Nat.sub_zero]
          refine (ih pos w.1 (by omega) hs.2.2).bind fun n wn en => ?_
          have := endChanged_ok hg (hc := hc) n m n.size 0 wn (size_eq hc n wn) (Nat.zero_le _)
          rw [en] at this
          rw [chars, insertAt_left (by omega)]
          exact this
        · omega
      · rename_i h3
        rcases hs with hs | hs | hs | hs | hs
        · exact absurd hs h0
        · exact absurd hs h1
        · simp [hs] at h2
        · omega
        · obtain ⟨m', e1, l1, t1⟩ := endInsertBuf_ok hg (str := str) (ts := ts) (pos := pos - ts) wu (by omega) (by omega)
          rw [e1, Option.bind_some]
          have := endChanged_ok hg (hc := hc) t m' ts (u + str.length) w.1 wt l1
          rw [t1] at this
          rw [chars, insertAt_right (by omega), ← wt]
          exact this
    · exact baseInsertV_ok hg w str hp
  | head h m t ts u ih =>
    intro pos w hp hs
    have wt := w.2.1
    have wu := w.2.2.1
    have lu : (m.drop (m.length - u)).length = u := by simp; omega
    have hp' : pos ≤ u + ts := by rw [chars, List.length_append, lu] at hp; omega
    rw [insertV]
    split
    · rename_i h0
      simpa [insertAt, h0] using beginV_ok hg str _ w
    split
    · rename_i h0 h1
      have e : (chars (.head h m t ts u)).length = pos := by rw [chars, List.length_append, lu]; omega
      simpa [insertAt, ← e] using endV_ok hg str _ w
    split
    · rename_i h0 h1 h2
      split
      · rename_i h3
        rcases hs with hs | hs | hs | hs | hs
        · exact absurd hs h0
        · exact absurd hs h1
        · simp [hs] at h2
        · obtain ⟨m', e1, l1, t1⟩ := headInsertBuf_ok hg (str := str) (ts := ts) (pos := pos) wu (by omega) hs.2
          rw [e1, Option.bind_some]
          have := headChanged_ok hg (hc := hc) t m' ts (u + str.length) w.1 wt l1
          rw [t1] at this
          rw [chars, insertAt_left (by omega)]
          exact this
        · omega
      · rename_i h3
        rcases hs with hs | hs | hs | hs | hs
        · exact absurd hs h0
        · exact absurd hs h1
        · simp [hs] at h2
        · omega
        · refine (ih (pos - u) w.1 (by omega) hs.2).bind fun n wn en => ?_
          have := headChanged_ok hg (hc := hc) n m n.size u wn (size_eq hc n wn) wu
          rw [en] at this
          rw [chars, insertAt_right (by omega), lu]
          exact this
    · exact baseInsertV_ok hg w str hp
  | inserted h t i ts p sz iht ihi =>
    intro pos w hp hs
    have wt := w.2.2.1
    have wi := w.2.2.2.1
    have wp := w.2.2.2.2.1
    have hp' : pos ≤ ts + sz := by rw [chars] at hp; simp at hp; omega
    have l1 : ((chars t).take p).length = p := by simp; omega
    rw [insertV]
    split
    · rename_i h0
      obtain ⟨s1, s2, s3⟩ := hs h0
      split
      · rename_i h1
        refine (ihi (pos - p) w.2.1 (by omega) (s1 h1.1 h1.2)).map fun n wn en =>
          ⟨⟨w.1, wn, wt, ?_, wp, cacheOk_changed _ _⟩, ?_⟩
        · rw [en, length_insertAt (by omega), wi]
        · rw [chars, chars, en, insertAt_left (by rw [List.length_append]; omega), insertAt_right (by omega), l1]
      split
      · rename_i h1 h2
        refine (iht pos w.1 (by omega) (s2 h2)).map fun n wn en =>
          ⟨⟨wn, w.2.1, ?_, wi, ?_, cacheOk_changed _ _⟩, ?_⟩
        · rw [en, length_insertAt (by omega), wt]
        · rw [en, length_insertAt (by omega)]; omega
        · have e1 : (insertAt (chars t) pos str).take (p + str.length) = insertAt ((chars t).take p) pos str := by
            conv_lhs => rw [← List.take_append_drop p (chars t), insertAt_left (by omega)]
            rw [List.take_append_of_le_length (by rw [length_insertAt (by omega)]; omega),
              List.take_of_length_le (by rw [length_insertAt (by omega)]; omega)]
          have e2 : (insertAt (chars t) pos str).drop (p + str.length) = (chars t).drop p := by
            conv_lhs => rw [← List.take_append_drop p (chars t), insertAt_left (by omega)]
            rw [List.drop_append_of_le_length (by rw [length_insertAt (by omega)]; omega),
              List.drop_eq_nil_of_le (by rw [length_insertAt (by omega)]; omega), List.nil_append]
          rw [chars, chars, en, e1, e2, insertAt_left (by rw [List.length_append]; omega), insertAt_left (by omega)]
      · rename_i h1 h2
        refine (iht (pos - sz) w.1 (by omega) (s3 (by omega))).map fun n wn en =>
          ⟨⟨wn, w.2.1, ?_, wi, ?_, cacheOk_changed _ _⟩, ?_⟩
        · rw [en, length_insertAt (by omega), wt]
        · rw [en, length_insertAt (by omega)]; omega
        · have e0 : insertAt (chars t) (pos - sz) str = (chars t).take p ++ insertAt ((chars t).drop p) (pos - sz - p) str := by
            conv_lhs => rw [← List.take_append_drop p (chars t), insertAt_right (by omega), l1]
          rw [chars, chars, en, e0, List.take_append_of_le_length (by omega), List.drop_append_of_le_length (by omega),
            List.take_of_length_le (by omega), List.drop_eq_nil_of_le (by omega), List.nil_append,
            insertAt_right (by rw [List.length_append]; omega), List.length_append, l1]
          congr 2; omega
    · exact baseInsertV_ok hg w str hp

theorem eraseAt_left {a b : List A} {pos k : Nat} (h : pos + k ≤ a.length) :
    eraseAt (a ++ b) pos k = eraseAt a pos k ++ b := by
  simp only [eraseAt]
  rw [List.take_append_of_le_length (by omega), List.drop_append_of_le_length h]; simp

theorem eraseAt_right {a b : List A} {pos k : Nat} (h : a.length ≤ pos) :
    eraseAt (a ++ b) pos k = a ++ eraseAt b (pos - a.length) k := by
  obtain ⟨j, rfl⟩ := Nat.exists_eq_add_of_le h
  simp [eraseAt, Nat.add_assoc, List.take_length_add_append, List.drop_length_add_append]

theorem length_eraseAt {a : List A} {pos k : Nat} (h : pos + k ≤ a.length) :
    (eraseAt a pos k).length = a.length - k := by
  simp [eraseAt]; omega

theorem mkErased_ok {hc : A → Word} {n : Node A} (w : WF hc n) {pos k : Nat} (h : pos + k ≤ (chars n).length) :
    WF hc (mkErased n pos k) ∧ chars (mkErased n pos k) = eraseAt (chars n) pos k := by
  have e := size_eq hc n w
  rw [mkErased]
  split
  · refine ⟨trivial, ?_⟩
    rw [chars, eq_comm, ← List.length_eq_zero_iff, length_eraseAt h]
    omega
  · exact ⟨⟨w, e, h, cacheOk_fresh _ _⟩, rfl⟩

theorem baseErase_ok {hc : A → Word} {n : Node A} (w : WF hc n) {pos k : Nat} (h : pos + k ≤ (chars n).length) :
    WF hc (baseErase n pos k) ∧ chars (baseErase n pos k) = eraseAt (chars n) pos k := by
  have e := size_eq hc n w
  rw [baseErase]
  split
  · refine ⟨trivial, ?_⟩
    rw [chars, eq_comm, ← List.length_eq_zero_iff, length_eraseAt h]
    omega
  · exact mkErased_ok w h

theorem erase_ok {hc : A → Word} : ∀ (n : Node A) (pos k : Nat), WF hc n → pos + k ≤ (chars n).length →
    WF hc (erase n pos k) ∧ chars (erase n pos k) = eraseAt (chars n) pos k := by
  intro n
  induction n with
  | null => intro pos k w hp; exact ⟨trivial, by simp [erase, chars, eraseAt]⟩
  | comn h m => intro pos k w hp; exact baseErase_ok w hp
  | const h m => intro pos k w hp; exact baseErase_ok w hp
  | same h s v => intro pos k w hp; exact baseErase_ok w hp
  | substr h t b s ih => intro pos k w hp; exact baseErase_ok w hp
  | sum h x y xs ys ihx ihy => intro pos k w hp; exact baseErase_ok w hp
  | endA h m t ts u ih => intro pos k w hp; exact baseErase_ok w hp
  | head h m t ts u ih => intro pos k w hp; exact baseErase_ok w hp
  | erased h t ts p sz ih =>
    intro pos k w hp
    rw [erase]
    split
    · rename_i hu
      have h1 := w.2.2.1
      have h2 : pos + k ≤ (chars t).length - sz := by
        have : (chars (.erased h t ts p sz)).length = (chars t).length - sz := length_eraseAt h1
        omega
      refine ⟨⟨w.1, w.2.1, by omega, cacheOk_changed _ _⟩, ?_⟩
      rw [chars, chars, eraseAt, List.take_append_of_le_length (by simp; omega), List.take_take,
        Nat.min_eq_left (by omega), List.drop_append, List.drop_eq_nil_of_le (as := List.take _ _) (by simp; omega),
        List.nil_append, List.drop_drop]
      congr 2; simp; omega
    · exact baseErase_ok w hp
  | inserted h t i ts p sz iht ihi =>
    intro pos k w hp
    have wt := w.2.2.1
    have wi := w.2.2.2.1
    have wp := w.2.2.2.2.1
    have hp' : pos + k ≤ ts + sz := by rw [chars] at hp; simp at hp; omega
    have l1 : ((chars t).take p).length = p := by simp; omega
    rw [erase]
    split
    · split
      · rename_i h0 h1
        obtain ⟨wn, en⟩ := ihi (pos - p) k w.2.1 (by omega)
        refine ⟨⟨w.1, wn, wt, ?_, wp, cacheOk_changed _ _⟩, ?_⟩
        · rw [en, length_eraseAt (by omega), wi]
        · rw [chars, chars, en, eraseAt_left (by rw [List.length_append]; omega), eraseAt_right (by omega), l1]
      split
      · rename_i h0 h1 h2
        obtain ⟨wn, en⟩ := iht pos k w.1 (by omega)
        refine ⟨⟨wn, w.2.1, ?_, wi, ?_, cacheOk_changed _ _⟩, ?_⟩
        · rw [en, length_eraseAt (by omega), wt]
        · rw [en, length_eraseAt (by omega)]; omega
        · have e0 : eraseAt (chars t) pos k = eraseAt ((chars t).take p) pos k ++ (chars t).drop p := by
            conv_lhs => rw [← List.take_append_drop p (chars t), eraseAt_left (by omega)]
          have l2 : (eraseAt ((chars t).take p) pos k).length = p - k := by rw [length_eraseAt (by omega), l1]
          rw [chars, chars, en, e0, eraseAt_left (by rw [List.length_append]; omega), eraseAt_left (by omega),
            List.take_append_of_le_length (by omega), List.drop_append_of_le_length (by omega),
            List.take_of_length_le (by omega), List.drop_eq_nil_of_le (by omega), List.nil_append]
      split
      · rename_i h0 h1 h2 h3
        obtain ⟨wn, en⟩ := iht (pos - sz) k w.1 (by omega)
        refine ⟨⟨wn, w.2.1, ?_, wi, ?_, cacheOk_changed _ _⟩, ?_⟩
        · rw [en, length_eraseAt (by omega), wt]
        · rw [en, length_eraseAt (by omega)]; omega
        · have e0 : eraseAt (chars t) (pos - sz) k = (chars t).take p ++ eraseAt ((chars t).drop p) (pos - sz - p) k := by
            conv_lhs => rw [← List.take_append_drop p (chars t), eraseAt_right (by omega), l1]
          rw [chars, chars, en, e0, List.take_append_of_le_length (by omega), List.drop_append_of_le_length (by omega),
            List.take_of_length_le (by omega), List.drop_eq_nil_of_le (by omega), List.nil_append,
            eraseAt_right (by rw [List.length_append]; omega), List.length_append, l1]
          congr 2; omega
      · exact baseErase_ok w hp
    · exact baseErase_ok w hp

/-! ### Removing -/

theorem baseRemoveFront_ok {hc : A → Word} {n : Node A} (w : WF hc n) {k : Nat} (h : k ≤ (chars n).length) :
    Gives hc (baseRemoveFront n k) ((chars n).drop k) := by
  rw [baseRemoveFront]
  split
  · rename_i h0; exact .mk w (by simp [h0])
  · rw [size_eq hc n w]
    obtain ⟨r, e, wr, er⟩ := getSubstr_ok hc n w k ((chars n).length - k) (by omega)
    exact ⟨r, e, wr, by rw [er, part_rest]⟩

theorem baseRemoveBack_ok {hc : A → Word} {n : Node A} (w : WF hc n) {k : Nat} (h : k ≤ (chars n).length) :
    Gives hc (baseRemoveBack n k) ((chars n).take ((chars n).length - k)) := by
  rw [baseRemoveBack]
  split
  · rename_i h0; exact .mk w (by simp [h0])
  · rw [size_eq hc n w]
    obtain ⟨r, e, wr, er⟩ := getSubstr_ok hc n w 0 ((chars n).length - k) (by omega)
    exact ⟨r, e, wr, by rw [er]; simp [part]⟩

theorem substrChecked_ok {hc : A → Word} {t : Node A} (w : WF hc t) {b s : Nat} (h : b + s ≤ (chars t).length) :
    WF hc (substrChecked t b s) ∧ chars (substrChecked t b s) = ((chars t).drop b).take s := by
  rw [substrChecked]
  split
  · rename_i h0; exact ⟨trivial, by simp [chars, h0]⟩
  · exact ⟨⟨w, h, cacheOk_changed _ _⟩, rfl⟩

theorem removeFront_ok {hc : A → Word} {gold : Nat → Nat} (hg : ∀ n, n ≤ gold n) :
    ∀ (n : Node A) (own : Bool) (k : Nat), WF hc n → k ≤ (chars n).length → FrontSafe own n k →
      Gives hc (removeFront gold own n k) ((chars n).drop k) := by
  intro n
  induction n with
  | null => intro own k w hk _; exact .mk trivial (by simp [chars])
  | comn h m => intro own k w hk _; exact baseRemoveFront_ok w hk
  | const h m => intro own k w hk _; exact baseRemoveFront_ok w hk
  | same h s v =>
    intro own k w hk hs
    simp only [chars, List.length_replicate] at hk
    rw [removeFront]
    split
    · rename_i hu
      rw [if_pos (hs hu)]
      exact .mk (cacheOk_changed _ _) (by simp [chars])
    · obtain ⟨a, b⟩ := clone_ok w (s - k)
      exact .mk a (by rw [b]; simp [chars])
  | substr h t b s ih =>
    intro own k w hk hs
    have h1 := w.2.1
    have hk' : k ≤ s := by simp [chars] at hk; omega
    rw [removeFront]
    split
    · rename_i hu
      obtain ⟨s1, s2⟩ := hs hu
      rw [if_pos s1]
      split
      · rename_i hb
        subst hb
        refine (ih true k w.1 (by omega) (s2 rfl)).map fun n wn en => ?_
        obtain ⟨a, b⟩ := substrChecked_ok (b := 0) (s := s - k) wn (by rw [en]; simp; omega)
        exact ⟨a, by rw [b, en, chars]; simp [List.drop_take]⟩
      · obtain ⟨a, c⟩ := substrChecked_ok (b := b + k) (s := s - k) w.1 (by omega)
        exact .mk a (by rw [c, chars, List.drop_take, List.drop_drop])
    · exact baseRemoveFront_ok w hk
  | head h m t ts u ih =>
    intro own k w hk hs
    have wt := w.2.1
    have wu := w.2.2.1
    have lu : (m.drop (m.length - u)).length = u := by simp; omega
    have hk' : k ≤ u + ts := by rw [chars, List.length_append, lu] at hk; omega
    rw [removeFront]
    split
    · rename_i h0
      have := ih (own && h.uniq) (k - u) w.1 (by omega) (hs.1 h0)
      rw [chars, List.drop_append, List.drop_eq_nil_of_le (by omega), List.nil_append, lu]
      exact this
    split
    · rename_i h0 hu
      rw [if_pos (hs.2 (by omega) hu)]
      have := headChanged_ok hg (hc := hc) t m ts (u - k) w.1 wt (by omega)
      rw [chars, List.drop_append_of_le_length (by omega), List.drop_drop,
        show m.length - u + k = m.length - (u - k) by omega]
      exact this
    · exact baseRemoveFront_ok w hk
  | endA h m t ts u ih =>
    intro own k w hk hs
    have wt := w.2.1
    rw [removeFront]
    split
    · rename_i hu
      obtain ⟨s1, s2⟩ := hs hu.1 hu.2
      rw [if_pos s1]
      refine (ih true k w.1 (by omega) s2).bind fun n wn en => ?_
      have := endChanged_ok hg (hc := hc) n m (ts - k) u wn (by rw [en, wt]; simp) w.2.2.1
      rw [en] at this
      rw [chars, List.drop_append_of_le_length (by omega)]
      exact this
    · exact baseRemoveFront_ok w hk
  | sum h x y xs ys ihx ihy =>
    intro own k w hk hs
    have wx := w.2.2.1
    have wy := w.2.2.2.1
    have hk' : k ≤ xs + ys := by rw [chars, List.length_append] at hk; omega
    rw [removeFront]
    split
    · rename_i h0
      exact .mk w.2.1 (by rw [chars, ← h0, wx]; simp)
    split
    · rename_i h0 h1
      have := ihy (own && h.uniq) (k - xs) w.2.1 (by omega) (hs.1 h1)
      rw [chars, List.drop_append, List.drop_eq_nil_of_le (by omega), List.nil_append, ← wx]
      exact this
    split
    · rename_i h0 h1 hu
      obtain ⟨s1, s2⟩ := hs.2 (by omega) hu
      rw [if_pos s1]
      refine (ihx true k w.1 (by omega) s2).map fun n wn en => ⟨⟨wn, w.2.1, ?_, wy, cacheOk_changed _ _⟩, ?_⟩
      · rw [en, wx]; simp
      · rw [chars, chars, en, List.drop_append_of_le_length (by omega)]
    · exact baseRemoveFront_ok w hk
  | erased h t ts p sz ih =>
    intro own k w hk hs
    have wt := w.2.1
    have wp := w.2.2.1
    have hk' : k ≤ (chars t).length - sz := by
      have : (chars (.erased h t ts p sz)).length = (chars t).length - sz := length_eraseAt wp
      omega
    rw [removeFront]
    split
    · rename_i h0
      have := ih (own && h.uniq) (k + sz) w.1 (by omega) (hs.1 h0)
      rw [chars, List.drop_append, List.drop_eq_nil_of_le (as := List.take _ _) (by simp; omega), List.nil_append,
        List.drop_drop, List.length_take, show p + sz + (k - min p (chars t).length) = k + sz by omega]
      exact this
    split
    · rename_i h0 hu
      obtain ⟨s1, s2⟩ := hs.2 (by omega) hu
      rw [if_pos s1]
      refine (ih true k w.1 (by omega) s2).map fun n wn en => ⟨⟨wn, ?_, ?_, cacheOk_changed _ _⟩, ?_⟩
      · rw [en, wt]; simp
      · rw [en]; simp; omega
      · rw [chars, chars, en, List.drop_append_of_le_length (by simp; omega), List.drop_take, List.drop_drop]
        congr 2; omega
    · exact baseRemoveFront_ok w hk
  | inserted h t i ts p sz iht ihi =>
    intro own k w hk hs
    have wt := w.2.2.1
    have wi := w.2.2.2.1
    have wp := w.2.2.2.2.1
    have hk' : k ≤ ts + sz := by rw [chars] at hk; simp at hk; omega
    have l1 : ((chars t).take p).length = p := by simp; omega
    obtain ⟨s1, s2, s3⟩ := hs
    rw [removeFront]
    split
    · rename_i h0
      have := iht (own && h.uniq) (k - sz) w.1 (by omega) (s1 h0)
      rw [chars, List.drop_append, List.drop_eq_nil_of_le (by rw [List.length_append]; omega), List.nil_append,
        List.drop_drop, List.length_append, l1, ← wi, show p + (k - (p + sz)) = k - sz by omega]
      exact this
    split
    · rename_i h0 hu
      obtain ⟨a, b⟩ := s2 (by omega) hu.1 hu.2
      rw [if_pos a]
      refine (iht true k w.1 (by omega) b).map fun n wn en => ⟨⟨wn, w.2.1, ?_, wi, ?_, cacheOk_changed _ _⟩, ?_⟩
      · rw [en, wt]; simp
      · rw [en]; simp; omega
      · rw [chars, chars, en, List.append_assoc, List.append_assoc, List.drop_append_of_le_length (by omega), List.drop_take, List.drop_drop]
        congr 3; omega
    split
    · rename_i h0 hu hv
      obtain ⟨a, b⟩ := s3 (by omega) hv.1 hv.2.1
      rw [if_pos a]
      refine (ihi true k w.2.1 (by omega) b).map fun n wn en => ⟨⟨w.1, wn, wt, ?_, wp, cacheOk_changed _ _⟩, ?_⟩
      · rw [en, wi]; simp
      · rw [chars, chars, en, hv.2.1]
        simp only [List.take_zero, List.nil_append, List.drop_zero]
        rw [List.drop_append_of_le_length (by omega)]
    · exact baseRemoveFront_ok w hk

theorem removeBack_ok {hc : A → Word} {gold : Nat → Nat} (hg : ∀ n, n ≤ gold n) :
    ∀ (n : Node A) (own : Bool) (k : Nat), WF hc n → k ≤ (chars n).length → BackSafe own n k →
      Gives hc (removeBack gold own n k) ((chars n).take ((chars n).length - k)) := by
  intro n
  induction n with
  | null => intro own k w hk _; exact .mk trivial (by simp [chars])
  | comn h m => intro own k w hk _; exact baseRemoveBack_ok w hk
  | const h m => intro own k w hk _; exact baseRemoveBack_ok w hk
  | same h s v =>
    intro own k w hk hs
    simp only [chars, List.length_replicate] at hk
    rw [removeBack]
    split
    · rename_i hu
      rw [if_pos (hs hu)]
      exact .mk (cacheOk_changed _ _) (by simp [chars])
    · obtain ⟨a, b⟩ := clone_ok w (s - k)
      exact .mk a (by rw [b]; simp [chars])
  | substr h t b s ih =>
    intro own k w hk hs
    have h1 := w.2.1
    have ls : (chars (.substr h t b s)).length = s := by simp [chars]; omega
    have e : (chars (.substr h t b s)).take (s - k) = ((chars t).drop b).take (s - k) := by
      rw [chars, List.take_take, Nat.min_eq_left (by omega)]
    rw [ls] at hk ⊢
    rw [e, removeBack]
    split
    · rename_i hu
      obtain ⟨s1, s2⟩ := hs hu
      rw [if_pos s1]
      split
      · rename_i hb
        rw [size_eq hc t w.1] at hb
        refine (ih true k w.1 (by omega) (s2 hb)).map fun n wn en => ?_
        obtain ⟨a, c⟩ := substrChecked_ok (b := b) (s := s - k) wn (by rw [en]; simp; omega)
        refine ⟨a, ?_⟩
        rw [c, en, List.drop_take, List.take_take]
        congr 1; omega
      · obtain ⟨a, c⟩ := substrChecked_ok (b := b) (s := s - k) w.1 (by omega)
        exact .mk a c
    · rw [← e]; simpa [ls] using baseRemoveBack_ok w (by omega : k ≤ (chars (.substr h t b s)).length)
  | endA h m t ts u ih =>
    intro own k w hk hs
    have wt := w.2.1
    have wu := w.2.2.1
    have ls : (chars (.endA h m t ts u)).length = ts + u := by simp [chars]; omega
    rw [removeBack]
    split
    · rename_i h0
      have := ih (own && h.uniq) (k - u) w.1 (by omega) (hs.1 h0)
      rw [ls, chars, List.take_append_of_le_length (by omega), show ts + u - k = (chars t).length - (k - u) by omega]
      exact this
    split
    · rename_i h0 hu
      rw [if_pos (hs.2 (by omega) hu)]
      have := endChanged_ok hg (hc := hc) t m ts (u - k) w.1 wt (by omega)
      rw [ls, chars, List.take_append, List.take_of_length_le (by omega), List.take_take,
        show min (ts + u - k - (chars t).length) u = u - k by omega]
      exact this
    · exact baseRemoveBack_ok w hk
  | head h m t ts u ih =>
    intro own k w hk hs
    have wt := w.2.1
    have wu := w.2.2.1
    have lu : (m.drop (m.length - u)).length = u := by simp; omega
    have ls : (chars (.head h m t ts u)).length = u + ts := by rw [chars, List.length_append, lu]; omega
    rw [removeBack]
    split
    · rename_i hu
      obtain ⟨s1, s2⟩ := hs hu.1 hu.2
      rw [if_pos s1]
      refine (ih true k w.1 (by omega) s2).bind fun n wn en => ?_
      have := headChanged_ok hg (hc := hc) n m (ts - k) u wn (by rw [en, wt]; simp) w.2.2.1
      rw [en] at this
      rw [ls, chars, List.take_append, List.take_of_length_le (by omega), lu,
        show u + ts - k - u = (chars t).length - k by omega]
      exact this
    · exact baseRemoveBack_ok w hk
  | sum h x y xs ys ihx ihy =>
    intro own k w hk hs
    have wx := w.2.2.1
    have wy := w.2.2.2.1
    have ls : (chars (.sum h x y xs ys)).length = xs + ys := by rw [chars, List.length_append]; omega
    rw [removeBack]
    split
    · rename_i h0
      exact .mk w.1 (by rw [ls, ← h0, chars, Nat.add_sub_cancel, wx]; simp)
    split
    · rename_i h0 h1
      have := ihx (own && h.uniq) (k - ys) w.1 (by omega) (hs.1 h1)
      rw [ls, chars, List.take_append_of_le_length (by omega), show xs + ys - k = (chars x).length - (k - ys) by omega]
      exact this
    split
    · rename_i h0 h1 hu
      obtain ⟨s1, s2⟩ := hs.2 (by omega) hu
      rw [if_pos s1]
      refine (ihy true k w.2.1 (by omega) s2).map fun n wn en => ⟨⟨w.1, wn, wx, ?_, cacheOk_changed _ _⟩, ?_⟩
      · rw [en, wy]; simp
      · rw [ls, chars, chars, en, List.take_append, List.take_of_length_le (l := chars x) (by omega)]
        congr 2; omega
    · exact baseRemoveBack_ok w hk
  | erased h t ts p sz ih =>
    intro own k w hk hs
    have wt := w.2.1
    have wp := w.2.2.1
    have ls : (chars (.erased h t ts p sz)).length = ts - sz := by rw [wt]; exact length_eraseAt wp
    have l1 : ((chars t).take p).length = p := by simp; omega
    rw [removeBack]
    split
    · rename_i h0
      have := ih (own && h.uniq) (k + sz) w.1 (by omega) (hs.1 h0)
      rw [ls, chars, List.take_append_of_le_length (by omega), List.take_take,
        show min (ts - sz - k) p = (chars t).length - (k + sz) by omega]
      exact this
    split
    · rename_i h0 hu
      obtain ⟨s1, s2⟩ := hs.2 (by omega) hu
      rw [if_pos s1]
      refine (ih true k w.1 (by omega) s2).map fun n wn en => ⟨⟨wn, ?_, ?_, cacheOk_changed _ _⟩, ?_⟩
      · rw [en, wt]; simp
      · rw [en]; simp; omega
      · rw [ls, chars, chars, en, List.take_append, List.take_of_length_le (l := List.take p _) (by omega), l1,
          List.take_take, Nat.min_eq_left (by omega), List.drop_take]
        congr 2; omega
    · exact baseRemoveBack_ok w hk
  | inserted h t i ts p sz iht ihi =>
    intro own k w hk hs
    have wt := w.2.2.1
    have wi := w.2.2.2.1
    have wp := w.2.2.2.2.1
    have l1 : ((chars t).take p).length = p := by simp; omega
    have ls : (chars (.inserted h t i ts p sz)).length = ts + sz := by
      rw [chars, List.length_append, List.length_append, List.length_drop]; omega
    obtain ⟨s1, s2⟩ := hs
    rw [removeBack, if_neg (by omega)]
    split
    · rename_i hu
      obtain ⟨a, b⟩ := s2 hu.1 hu.2
      rw [if_pos a]
      refine (iht true k w.1 (by omega) b).map fun n wn en => ⟨⟨wn, w.2.1, ?_, wi, ?_, cacheOk_changed _ _⟩, ?_⟩
      · rw [en, wt]; simp
      · rw [en]; simp; omega
      · rw [ls, chars, chars, en, List.take_append, List.take_of_length_le (l := List.take p _ ++ _) (by rw [List.length_append]; omega),
          List.take_take, Nat.min_eq_left (by omega), List.drop_take]
        congr 2; rw [List.length_append, l1]; omega
    · rw [if_neg (by omega)]
      exact baseRemoveBack_ok w hk

theorem frontSafe_of_unique : ∀ (n : Node A), AllUnique n → ∀ k, FrontSafe true n k := by
  intro n
  induction n with
  | substr h t b s ih => exact fun w k _ => ⟨.inl rfl, fun _ => ih w.2 k⟩
  | head h m t ts u ih => exact fun w k => ⟨fun _ => by rw [w.1]; exact ih w.2 _, fun _ _ => .inl rfl⟩
  | endA h m t ts u ih => exact fun w k _ _ => ⟨.inl rfl, ih w.2 k⟩
  | sum h x y xs ys ihx ihy =>
    exact fun w k => ⟨fun _ => by rw [w.1]; exact ihy w.2.2 _, fun _ _ => ⟨.inl rfl, ihx w.2.1 _⟩⟩
  | erased h t ts p sz ih =>
    exact fun w k => ⟨fun _ => by rw [w.1]; exact ih w.2 _, fun _ _ => ⟨.inl rfl, ih w.2 _⟩⟩
  | inserted h t i ts p sz iht ihi =>
    exact fun w k => ⟨fun _ => by rw [w.1]; exact iht w.2.1 _, fun _ _ _ => ⟨.inl rfl, iht w.2.1 _⟩,
      fun _ _ _ => ⟨.inl rfl, ihi w.2.2 _⟩⟩
  | same h s v => exact fun _ _ _ => .inl rfl
  | _ => exact fun _ _ => trivial

theorem backSafe_of_unique : ∀ (n : Node A), AllUnique n → NoInserted n → ∀ k, BackSafe true n k := by
  intro n
  induction n with
  | substr h t b s ih => exact fun w ni k _ => ⟨.inl rfl, fun _ => ih w.2 ni k⟩
  | endA h m t ts u ih => exact fun w ni k => ⟨fun _ => by rw [w.1]; exact ih w.2 ni _, fun _ _ => .inl rfl⟩
  | head h m t ts u ih => exact fun w ni k _ _ => ⟨.inl rfl, ih w.2 ni k⟩
  | sum h x y xs ys ihx ihy =>
    exact fun w ni k => ⟨fun _ => by rw [w.1]; exact ihx w.2.1 ni.1 _, fun _ _ => ⟨.inl rfl, ihy w.2.2 ni.2 _⟩⟩
  | erased h t ts p sz ih =>
    exact fun w ni k => ⟨fun _ => by rw [w.1]; exact ih w.2 ni _, fun _ _ => ⟨.inl rfl, ih w.2 ni _⟩⟩
  | inserted h t i ts p sz iht ihi => exact fun w ni => ni.elim
  | same h s v => exact fun _ _ _ _ => .inl rfl
  | _ => exact fun _ _ _ => trivial

theorem removeFront_unsafe {gold : Nat → Nat} : ∀ (n : Node A) (own : Bool) (k : Nat),
    ¬ FrontSafe own n k → removeFront gold own n k = none := by
  intro n
  induction n with
  | null => intro own k h; exact absurd trivial h
  | comn _ _ => intro own k h; exact absurd trivial h
  | const _ _ => intro own k h; exact absurd trivial h
  | same h s v => intro own k hs; simp only [FrontSafe] at hs; simp only [removeFront]; grind
  | substr h t b s ih => intro own k hs; simp only [FrontSafe] at hs; simp only [removeFront]; grind
  | head h m t ts u ih => intro own k hs; simp only [FrontSafe] at hs; simp only [removeFront]; grind
  | endA h m t ts u ih => intro own k hs; simp only [FrontSafe] at hs; simp only [removeFront]; grind
  | sum h x y xs ys ihx ihy => intro own k hs; simp only [FrontSafe] at hs; simp only [removeFront]; grind
  | erased h t ts p sz ih => intro own k hs; simp only [FrontSafe] at hs; simp only [removeFront]; grind
  | inserted h t i ts p sz iht ihi => intro own k hs; simp only [FrontSafe] at hs; simp only [removeFront]; grind

/-! ### Popping -/

/-- A pop has a result: the popped string and the rest, in order and with these characters. -/
def Gives2 (hc : A → Word) (r : Option (Node A × Node A)) (x l : List A) : Prop :=
  ∃ a b, r = some (a, b) ∧ WF hc a ∧ chars a = x ∧ WF hc b ∧ chars b = l

theorem Gives2.map {hc : A → Word} {r : Option (Node A × Node A)} {x l l' : List A} {f : Node A → Node A}
    (g : Gives2 hc r x l) (h : ∀ n, WF hc n → chars n = l → WF hc (f n) ∧ chars (f n) = l') :
    Gives2 hc (r.map fun r => (r.1, f r.2)) x l' := by
  obtain ⟨a, b, rfl, wa, ea, wb, eb⟩ := g
  exact ⟨a, f b, rfl, wa, ea, h b wb eb⟩

theorem Gives2.bind {hc : A → Word} {r : Option (Node A × Node A)} {x l l' : List A} {f : Node A → Option (Node A)}
    (g : Gives2 hc r x l) (h : ∀ n, WF hc n → chars n = l → Gives hc (f n) l') :
    Gives2 hc (r.bind fun r => (f r.2).map fun n => (r.1, n)) x l' := by
  obtain ⟨a, b, rfl, wa, ea, wb, eb⟩ := g
  obtain ⟨n, e, wn, en⟩ := h b wb eb
  exact ⟨a, n, by simp [e], wa, ea, wn, en⟩

theorem Gives2.congr {hc : A → Word} {r : Option (Node A × Node A)} {x l x' l' : List A}
    (g : Gives2 hc r x l) (hx : x = x') (hl : l = l') : Gives2 hc r x' l' := by
  subst hx hl; exact g

theorem Gives2.left {hc : A → Word} {r : Option (Node A × Node A)} {x l x' : List A}
    (g : Gives2 hc r x l) (hx : x = x') : Gives2 hc r x' l := by
  subst hx; exact g

theorem basePopFront_ok {hc : A → Word} {n : Node A} (w : WF hc n) {k : Nat} (h : k ≤ (chars n).length) :
    Gives2 hc (basePopFront n k) ((chars n).take k) ((chars n).drop k) := by
  rw [basePopFront]
  split
  · rename_i h0; exact ⟨_, _, rfl, trivial, by simp [h0, chars], w, by simp [h0]⟩
  · rw [size_eq hc n w]
    obtain ⟨r, e, wr, er⟩ := getSubstr_ok hc n w 0 k (by omega)
    obtain ⟨r', e', wr', er'⟩ := getSubstr_ok hc n w k ((chars n).length - k) (by omega)
    exact ⟨r, r', by simp [e, e'], wr, by rw [er]; simp [part], wr', by rw [er', part_rest]⟩

theorem basePopBack_ok {hc : A → Word} {n : Node A} (w : WF hc n) {k : Nat} (h : k ≤ (chars n).length) :
    Gives2 hc (basePopBack n k) ((chars n).drop ((chars n).length - k)) ((chars n).take ((chars n).length - k)) := by
  rw [basePopBack]
  split
  · rename_i h0; exact ⟨_, _, rfl, trivial, by simp [h0, chars], w, by simp [h0]⟩
  · rw [size_eq hc n w]
    obtain ⟨r, e, wr, er⟩ := getSubstr_ok hc n w 0 ((chars n).length - k) (by omega)
    obtain ⟨r', e', wr', er'⟩ := getSubstr_ok hc n w ((chars n).length - k) k (by omega)
    refine ⟨r', r, by simp [e, e'], wr', ?_, wr, by rw [er]; simp [part]⟩
    rw [er', part, List.take_of_length_le (by simp; omega)]

theorem samePop_ok {hc : A → Word} {h : Hd} {s : Nat} {v : A} (w : WF hc (.same h s v)) (k : Nat) :
    Gives2 hc (some (samePop h s v k)) (List.replicate k v) (List.replicate (s - k) v) := by
  rw [samePop]
  split
  · have wc : WF hc (.same changed (s - k) v) := cacheOk_changed _ _
    obtain ⟨a, b⟩ := clone_ok wc k
    exact ⟨_, _, rfl, a, b, wc, rfl⟩
  · obtain ⟨a, b⟩ := clone_ok w k
    obtain ⟨a', b'⟩ := clone_ok w (s - k)
    exact ⟨_, _, rfl, a, b, a', b'⟩

theorem erasedChecked_ok {hc : A → Word} {t : Node A} (w : WF hc t) {ts p sz : Nat} (e : ts = (chars t).length)
    (h : p + sz ≤ (chars t).length) :
    WF hc (erasedChecked t ts p sz) ∧ chars (erasedChecked t ts p sz) = eraseAt (chars t) p sz := by
  rw [erasedChecked]
  split
  · refine ⟨trivial, ?_⟩
    rw [chars, eq_comm, ← List.length_eq_zero_iff, length_eraseAt h]
    omega
  · exact ⟨⟨w, e, h, cacheOk_changed _ _⟩, rfl⟩

theorem headChanged_plain {gold : Nat → Nat} {m : List A} {t : Node A} {ts u : Nat} (h : ¬ UniqueHead t) :
    headChanged gold m t ts u = some (.head changed m t ts u) := by
  cases t with
  | head h' m' t' ts' u' =>
    rw [headChanged]; exact if_neg h
  | _ => rfl

theorem endChanged_plain {gold : Nat → Nat} {m : List A} {t : Node A} {ts u : Nat} (h : ¬ UniqueEnd t) :
    endChanged gold m t ts u = some (.endA changed m t ts u) := by
  cases t with
  | endA h' m' t' ts' u' =>
    rw [endChanged]; exact if_neg h
  | _ => rfl

theorem headChanged_head {gold : Nat → Nat} : ∀ (t : Node A) (m : List A) (ts u : Nat) {r : Node A},
    headChanged gold m t ts u = some r → ∃ h m t ts u, r = .head h m t ts u := by
  intro t
  induction t with
  | head h' m' t' ts' u' ih =>
    intro m ts u r e
    rw [headChanged] at e
    split at e
    · simp only [Option.bind_eq_some_iff] at e
      obtain ⟨_, _, _, _, e⟩ := e
      exact ih _ _ _ e
    · exact ⟨_, _, _, _, _, (Option.some.inj e).symm⟩
  | _ => intro m ts u r e; exact ⟨_, _, _, _, _, (Option.some.inj e).symm⟩

theorem endChanged_end {gold : Nat → Nat} : ∀ (t : Node A) (m : List A) (ts u : Nat) {r : Node A},
    endChanged gold m t ts u = some r → ∃ h m t ts u, r = .endA h m t ts u := by
  intro t
  induction t with
  | endA h' m' t' ts' u' ih =>
    intro m ts u r e
    rw [endChanged] at e
    split at e
    · simp only [Option.bind_eq_some_iff] at e
      obtain ⟨_, _, _, _, e⟩ := e
      exact ih _ _ _ e
    · exact ⟨_, _, _, _, _, (Option.some.inj e).symm⟩
  | _ => intro m ts u r e; exact ⟨_, _, _, _, _, (Option.some.inj e).symm⟩

theorem popFront_ok {hc : A → Word} {gold : Nat → Nat} (hg : ∀ n, n ≤ gold n) :
    ∀ (n : Node A) (k : Nat), WF hc n → k ≤ (chars n).length → PopFrontSafe n k →
      Gives2 hc (popFront gold n k) ((chars n).take k) ((chars n).drop k) := by
  intro n
  induction n with
  | null => intro k w hk _; exact ⟨_, _, rfl, trivial, by simp [chars], trivial, by simp [chars]⟩
  | comn h m => intro k w hk _; exact basePopFront_ok w hk
  | const h m => intro k w hk _; exact basePopFront_ok w hk
  | same h s v =>
    intro k w hk hs
    simp only [chars, List.length_replicate] at hk
    exact (samePop_ok w k).congr (by simp [chars, hk]) (by simp [chars])
  | substr h t b s ih =>
    intro k w hk hs
    have h1 := w.2.1
    have hk' : k ≤ s := by simp [chars] at hk; omega
    rw [popFront]
    split
    · rename_i hu
      have := (ih k w.1 (by omega) (hs hu.1 hu.2)).map (f := fun t => substrChecked t b (s - k))
        (l' := (chars (.substr h t b s)).drop k) fun n wn en => ?_
      · exact this.congr (by rw [chars, hu.2, List.drop_zero, List.take_take, Nat.min_eq_left hk']) rfl
      · obtain ⟨a, c⟩ := substrChecked_ok (b := b) (s := s - k) wn (by rw [en, hu.2]; simp; omega)
        exact ⟨a, by rw [c, en, chars, hu.2]; simp [List.drop_take]⟩
    · exact basePopFront_ok w hk
  | head h m t ts u ih =>
    intro k w hk hs
    have wt := w.2.1
    have wu := w.2.2.1
    have lu : (m.drop (m.length - u)).length = u := by simp; omega
    rw [popFront]
    split
    · rename_i hu
      rcases hs hu.1 hu.2 with h0 | h0
      · subst h0
        obtain ⟨r, e, wr, er⟩ := headChanged_ok hg (hc := hc) t m ts u w.1 wt wu
        obtain ⟨h', m', t', ts', u', rfl⟩ := headChanged_head _ _ _ _ e
        rw [Nat.sub_zero, e, Option.bind_some, headPopped, if_pos (by have := wr.2.2.1; omega), slice_ok (by omega)]
        exact ⟨_, _, rfl, cacheOk_fresh _ _, by simp [chars, part], wr, by rw [er, chars, List.drop_zero]⟩
      · rw [headChanged_plain h0, Option.bind_some, headPopped, if_pos (by omega), slice_ok (by omega)]
        refine ⟨_, _, rfl, cacheOk_fresh _ _, ?_, ⟨w.1, wt, by omega, cacheOk_changed _ _⟩, ?_⟩
        · rw [chars, chars, List.take_append_of_le_length (by omega), part]
          congr 2; omega
        · rw [chars, chars, List.drop_append_of_le_length (by omega), List.drop_drop]
          congr 2; omega
    · exact basePopFront_ok w hk
  | endA h m t ts u ih =>
    intro k w hk hs
    have wt := w.2.1
    rw [popFront]
    split
    · rename_i hu
      refine ((ih k w.1 (by omega) (hs hu.1 hu.2)).bind (f := fun n => endChanged gold m n (ts - k) u) fun n wn en => ?_).left ?_
      · have := endChanged_ok hg (hc := hc) n m (ts - k) u wn (by rw [en, wt]; simp) w.2.2.1
        rw [en] at this
        rw [chars, List.drop_append_of_le_length (by omega)]
        exact this
      · rw [chars, List.take_append_of_le_length (by omega)]
    · exact basePopFront_ok w hk
  | sum h x y xs ys ihx ihy =>
    intro k w hk hs
    have wx := w.2.2.1
    have wy := w.2.2.2.1
    rw [popFront]
    split
    · rename_i hu
      split
      · rename_i h0
        exact ⟨_, _, rfl, w.1, by rw [chars, ← h0, wx]; simp, w.2.1, by rw [chars, ← h0, wx]; simp⟩
      · rename_i h0
        refine ((ihx k w.1 (by omega) (hs hu.1 (by omega))).map (f := fun x => .sum changed x y (xs - k) ys)
          fun n wn en => ⟨⟨wn, w.2.1, ?_, wy, cacheOk_changed _ _⟩, ?_⟩).left ?_
        · rw [en, wx]; simp
        · rw [chars, chars, en, List.drop_append_of_le_length (by omega)]
        · rw [chars, List.take_append_of_le_length (by omega)]
    · exact basePopFront_ok w hk
  | erased h t ts p sz ih =>
    intro k w hk hs
    have wt := w.2.1
    have wp := w.2.2.1
    rw [popFront]
    split
    · rename_i hu
      refine ((ih k w.1 (by omega) (hs hu.1 hu.2)).map (f := fun t => erasedChecked t (ts - k) (p - k) sz)
          fun n wn en => ?_).left ?_
      · obtain ⟨a, b⟩ := erasedChecked_ok (ts := ts - k) (p := p - k) (sz := sz) wn (by rw [en, wt]; simp) (by rw [en]; simp; omega)
        refine ⟨a, ?_⟩
        rw [b, en, chars, eraseAt, List.drop_append_of_le_length (by simp; omega), List.drop_take, List.drop_drop]
        congr 2; omega
      · rw [chars, List.take_append_of_le_length (by simp; omega), List.take_take, Nat.min_eq_left (by omega)]
    · exact basePopFront_ok w hk
  | inserted h t i ts p sz iht ihi =>
    intro k w hk hs
    have wt := w.2.2.1
    have wi := w.2.2.2.1
    have wp := w.2.2.2.2.1
    have l1 : ((chars t).take p).length = p := by simp; omega
    rw [popFront]
    split
    · rename_i hu
      refine ((iht k w.1 (by omega) ((hs hu.1).1 hu.2)).map (f := fun t => .inserted changed t i (ts - k) (p - k) sz)
          fun n wn en => ⟨⟨wn, w.2.1, ?_, wi, ?_, cacheOk_changed _ _⟩, ?_⟩).left ?_
      · rw [en, wt]; simp
      · rw [en]; simp; omega
      · rw [chars, chars, en, List.append_assoc, List.append_assoc, List.drop_append_of_le_length (by omega), List.drop_take, List.drop_drop]
        congr 3; omega
      · rw [chars, List.append_assoc, List.take_append_of_le_length (by omega), List.take_take, Nat.min_eq_left (by omega)]
    split
    · rename_i hu hv
      refine ((ihi k w.2.1 (by omega) ((hs hv.1).2 hv.2.1 hv.2.2)).map (f := fun i => .inserted changed t i ts p (sz - k))
          fun n wn en => ⟨⟨w.1, wn, wt, ?_, wp, cacheOk_changed _ _⟩, ?_⟩).left ?_
      · rw [en, wi]; simp
      · rw [chars, chars, en, hv.2.1]
        simp only [List.take_zero, List.nil_append, List.drop_zero]
        rw [List.drop_append_of_le_length (by omega)]
      · rw [chars, hv.2.1]
        simp only [List.take_zero, List.nil_append, List.drop_zero]
        rw [List.take_append_of_le_length (by omega)]
    · exact basePopFront_ok w hk

theorem popBack_ok {hc : A → Word} {gold : Nat → Nat} (hg : ∀ n, n ≤ gold n) :
    ∀ (n : Node A) (k : Nat), WF hc n → k ≤ (chars n).length → PopBackSafe n k →
      Gives2 hc (popBack gold n k) ((chars n).drop ((chars n).length - k)) ((chars n).take ((chars n).length - k)) := by
  intro n
  induction n with
  | null => intro k w hk _; exact ⟨_, _, rfl, trivial, by simp [chars], trivial, by simp [chars]⟩
  | comn h m => intro k w hk _; exact basePopBack_ok w hk
  | const h m => intro k w hk _; exact basePopBack_ok w hk
  | same h s v =>
    intro k w hk hs
    simp only [chars, List.length_replicate] at hk
    exact (samePop_ok w k).congr (by simp [chars]; omega) (by simp [chars])
  | substr h t b s ih =>
    intro k w hk hs
    have h1 := w.2.1
    have ls : (chars (.substr h t b s)).length = s := by simp [chars]; omega
    rw [popBack]
    split
    · rename_i hu
      rw [size_eq hc t w.1] at hu
      refine ((ih k w.1 (by omega) (hs hu.1 hu.2)).map (f := fun t => substrChecked t b (s - k))
        fun n wn en => ?_).left ?_
      · obtain ⟨a, c⟩ := substrChecked_ok (b := b) (s := s - k) wn (by rw [en]; simp; omega)
        refine ⟨a, ?_⟩
        rw [c, en, ls, chars, List.drop_take, List.take_take, List.take_take]
        congr 1; omega
      · rw [ls, chars, List.drop_take, List.drop_drop, List.take_of_length_le (by simp; omega)]
        congr 1; omega
    · exact basePopBack_ok w hk
  | endA h m t ts u ih =>
    intro k w hk hs
    have wt := w.2.1
    have wu := w.2.2.1
    have ls : (chars (.endA h m t ts u)).length = ts + u := by simp [chars]; omega
    rw [popBack]
    split
    · rename_i hu
      rcases hs hu.1 hu.2 with h0 | h0
      · subst h0
        obtain ⟨r, e, wr, er⟩ := endChanged_ok hg (hc := hc) t m ts u w.1 wt wu
        obtain ⟨h', m', t', ts', u', rfl⟩ := endChanged_end _ _ _ _ e
        rw [Nat.sub_zero, e, Option.bind_some, endPopped, slice_ok (by have := wr.2.2.1; omega)]
        refine ⟨_, _, rfl, cacheOk_fresh _ _, by simp [chars, part], wr, ?_⟩
        rw [er, Nat.sub_zero, List.take_length, chars]
      · rw [endChanged_plain h0, Option.bind_some, endPopped, slice_ok (by omega)]
        refine ⟨_, _, rfl, cacheOk_fresh _ _, ?_, ⟨w.1, wt, by omega, cacheOk_changed _ _⟩, ?_⟩
        · rw [ls, chars, chars, List.drop_append, List.drop_eq_nil_of_le (by omega), List.nil_append, List.drop_take, part]
          congr 2 <;> omega
        · rw [ls, chars, chars, List.take_append, List.take_of_length_le (l := chars t) (by omega), List.take_take]
          congr 2; omega
    · exact basePopBack_ok w hk
  | head h m t ts u ih =>
    intro k w hk hs
    have wt := w.2.1
    have wu := w.2.2.1
    have lu : (m.drop (m.length - u)).length = u := by simp; omega
    have ls : (chars (.head h m t ts u)).length = u + ts := by rw [chars, List.length_append, lu]; omega
    rw [popBack]
    split
    · rename_i hu
      obtain ⟨s1, s2⟩ := hs hu
      rw [wsub_eq s1]
      refine ((ih k w.1 (by omega) s2).bind (f := fun n => headChanged gold m n (ts - k) u) fun n wn en => ?_).left ?_
      · have := headChanged_ok hg (hc := hc) n m (ts - k) u wn (by rw [en, wt]; simp) w.2.2.1
        rw [en] at this
        rw [ls, chars, List.take_append, List.take_of_length_le (by omega), lu,
          show u + ts - k - u = (chars t).length - k by omega]
        exact this
      · rw [ls, chars, List.drop_append, List.drop_eq_nil_of_le (as := m.drop _) (by omega), List.nil_append, lu]
        congr 1; omega
    · exact basePopBack_ok w hk
  | sum h x y xs ys ihx ihy =>
    intro k w hk hs
    have wx := w.2.2.1
    have wy := w.2.2.2.1
    have ls : (chars (.sum h x y xs ys)).length = xs + ys := by rw [chars, List.length_append]; omega
    rw [popBack]
    split
    · rename_i hu
      obtain ⟨s1, s2⟩ := hs hu.1 hu.2
      by_cases h0 : xs = k
      · have h1 := s1 h0
        rw [if_pos h0, Option.map_some, if_pos (by omega)]
        refine ⟨_, _, rfl, w.2.1, ?_, w.1, ?_⟩
        · rw [ls, h1, Nat.add_sub_cancel, chars, wx]; simp
        · rw [ls, h1, Nat.add_sub_cancel, chars, wx]; simp
      · rw [if_neg h0]
        refine ((ihy k w.2.1 (by omega) (s2 h0)).map (f := fun y => if ys - k = 0 then x else .sum changed x y xs (ys - k))
          fun n wn en => ?_).left ?_
        · split
          · refine ⟨w.1, ?_⟩
            rw [ls, chars, show xs + ys - k = (chars x).length by omega]; simp
          · refine ⟨⟨w.1, wn, wx, ?_, cacheOk_changed _ _⟩, ?_⟩
            · rw [en, wy]; simp
            · rw [ls, chars, chars, en, List.take_append, List.take_of_length_le (l := chars x) (by omega)]
              congr 2; omega
        · rw [ls, chars, List.drop_append, List.drop_eq_nil_of_le (as := chars x) (by omega), List.nil_append]
          congr 1; omega
    · exact basePopBack_ok w hk
  | erased h t ts p sz ih =>
    intro k w hk hs
    have wt := w.2.1
    have wp := w.2.2.1
    have ls : (chars (.erased h t ts p sz)).length = ts - sz := by rw [wt]; exact length_eraseAt wp
    have l1 : ((chars t).take p).length = p := by simp; omega
    rw [popBack, wsub_eq (by omega)]
    split
    · rename_i hu
      refine ((ih k w.1 (by omega) (hs hu.1 hu.2)).map (f := fun t => erasedChecked t (ts - k) p sz)
          fun n wn en => ?_).left ?_
      · obtain ⟨a, b⟩ := erasedChecked_ok (ts := ts - k) (p := p) (sz := sz) wn (by rw [en, wt]; simp) (by rw [en]; simp; omega)
        refine ⟨a, ?_⟩
        rw [b, en, ls, chars, eraseAt, List.take_append, List.take_of_length_le (l := List.take p _) (by omega), l1,
          List.take_take, Nat.min_eq_left (by omega), List.drop_take]
        congr 2; omega
      · rw [ls, chars, List.drop_append, List.drop_eq_nil_of_le (as := List.take _ _) (by omega), List.nil_append, List.drop_drop, l1]
        congr 1; omega
    · exact basePopBack_ok w hk
  | inserted h t i ts p sz iht ihi =>
    intro k w hk hs
    have wt := w.2.2.1
    have wi := w.2.2.2.1
    have wp := w.2.2.2.2.1
    have l1 : ((chars t).take p).length = p := by simp; omega
    have ls : (chars (.inserted h t i ts p sz)).length = ts + sz := by
      rw [chars, List.length_append, List.length_append, List.length_drop]; omega
    rw [popBack]
    split
    · rename_i hu
      obtain ⟨s1, s2, s3⟩ := hs hu.1
      rw [wsub_eq s1] at hu ⊢
      refine ((iht k w.1 (by omega) (s2 hu.2)).map (f := fun t => .inserted changed t i (ts - k) p sz)
          fun n wn en => ⟨⟨wn, w.2.1, ?_, wi, ?_, cacheOk_changed _ _⟩, ?_⟩).left ?_
      · rw [en, wt]; simp
      · rw [en]; simp; omega
      · rw [ls, chars, chars, en, List.take_append, List.take_of_length_le (l := List.take p _ ++ _) (by rw [List.length_append]; omega),
          List.take_take, Nat.min_eq_left (by omega), List.drop_take]
        congr 2; rw [List.length_append, l1]; omega
      · rw [ls, chars, List.drop_append, List.drop_eq_nil_of_le (as := List.take _ _ ++ _) (by rw [List.length_append]; omega), List.nil_append, List.drop_drop,
          List.length_append, l1]
        congr 1; omega
    split
    · rename_i hu hv
      obtain ⟨s1, s2, s3⟩ := hs hv.1
      have := s3 hv.2.1
      omega
    · exact basePopBack_ok w hk

/-! ### Assignment -/

theorem setAt_ok {m : List A} {i : Nat} (h : i < m.length) (a : A) : setAt m i a = some (m.set i a) := by
  rw [setAt, if_pos h]

theorem baseSet_ok {hc : A → Word} {n : Node A} (w : WF hc n) (rc : RangeClear n 0 (chars n).length) {i : Nat}
    (h : i < (chars n).length) (a : A) : Gives hc (baseSet n i a) ((chars n).set i a) := by
  rw [baseSet, size_eq hc n w, copyPart_clear hc n w _ _ rc (by omega), Option.bind_some, part_all, setAt_ok h,
    Option.map_some]
  exact .mk (cacheOk_fresh _ _) rfl

theorem set_take {l : List A} {k i : Nat} {a : A} : (l.set i a).take k = (l.take k).set i a := by
  apply List.ext_getElem?
  intro j
  simp only [List.getElem?_take, List.getElem?_set, List.length_take]
  grind

theorem set_drop {l : List A} {k i : Nat} {a : A} : (l.set (k + i) a).drop k = (l.drop k).set i a := by
  apply List.ext_getElem?
  intro j
  simp only [List.getElem?_drop, List.getElem?_set, List.length_drop]
  grind

theorem set_drop_before {l : List A} {k i : Nat} {a : A} (h : i < k) : (l.set i a).drop k = l.drop k := by
  apply List.ext_getElem?
  intro j
  simp only [List.getElem?_drop, List.getElem?_set]
  grind

theorem set_take_after {l : List A} {k i : Nat} {a : A} (h : k ≤ i) : (l.set i a).take k = l.take k := by
  apply List.ext_getElem?
  intro j
  simp only [List.getElem?_take, List.getElem?_set]
  grind

theorem set_left {l x : List A} {i : Nat} {a : A} (h : i < l.length) : (l ++ x).set i a = l.set i a ++ x :=
  List.set_append_left i a h

theorem set_right {l x : List A} {i : Nat} {a : A} (h : l.length ≤ i) :
    (l ++ x).set i a = l ++ x.set (i - l.length) a := List.set_append_right i a h

theorem set_same {s i : Nat} {v : A} : (List.replicate s v).set i v = List.replicate s v := by
  apply List.ext_getElem?
  intro j
  simp only [List.getElem?_set, List.getElem?_replicate, List.length_replicate]
  grind

variable [DecidableEq A]

theorem replaces_of_stays {n : Node A} {a : A} (h : Stays n a) : replaces n a = false := by
  cases n with
  | null => rfl
  | const => exact h.elim
  | same h' s v => simp only [Stays] at h; simp [replaces]; tauto
  | _ => simp only [Stays] at h; simp [replaces, h]

theorem sameSetLong_ok {hc : A → Word} {h : Hd} {s : Nat} {v : A} (w : WF hc (.same h s v)) {i : Nat} {a : A}
    (hs : 512 < s) (hi : i + 256 ≤ s) : Gives hc (sameSetLong h s v i a) ((List.replicate s v).set i a) := by
  rw [sameSetLong]
  generalize h512 : 512 = N at hs ⊢
  generalize h256 : 256 = K at hi ⊢
  rw [setAt_ok (by simp; omega), Option.map_some]
  dsimp only
  have wc : WF hc (.comn changed ((List.replicate N v).set (min i K) a) : Node A) := cacheOk_changed _ _
  by_cases h0 : i > K
  · rw [if_pos h0]
    obtain ⟨w1, e1⟩ := clone_ok w (i - K)
    obtain ⟨r, er, wr, cr⟩ := mkSum_ok w1 wc
    rw [Option.some.injEq] at er
    rw [er]
    have lr : r.size = i + K := by
      rw [size_eq hc _ wr, cr, e1, chars]; simp; omega
    rw [lr, wsub_eq hi]
    have key : ∀ k, i + K + k = s →
        (List.replicate (i - K) v ++ (List.replicate N v).set (min i K) a) ++ List.replicate k v =
          (List.replicate s v).set i a := by
      intro k hk
      rw [show List.replicate s v = (List.replicate (i - K) v ++ List.replicate N v) ++ List.replicate k v by
        rw [List.replicate_append_replicate, List.replicate_append_replicate]; congr 1; omega,
        set_left (by simp; omega), set_right (by simp)]
      congr 3; simp; omega
    split
    · obtain ⟨w2, e2⟩ := clone_ok w (s - (i + K))
      have := mkSum_ok wr w2
      rw [cr, e2, e1, chars, key _ (by omega)] at this
      exact this
    · have k0 := key 0 (by omega)
      rw [List.replicate_zero, List.append_nil] at k0
      exact .mk wr (by rw [cr, e1, chars, k0])
  · rw [if_neg h0]
    rw [show (Node.comn changed ((List.replicate N v).set (min i K) a)).size = N by simp [Node.size],
      wsub_eq (by omega), if_pos (by omega)]
    obtain ⟨w2, e2⟩ := clone_ok w (s - N)
    have := mkSum_ok wc w2
    rw [e2, chars] at this
    rw [show List.replicate s v = List.replicate N v ++ List.replicate (s - N) v by
        rw [List.replicate_append_replicate]; congr 1; omega, set_left (by simp; omega)]
    rw [Nat.min_eq_left (by omega)] at this ⊢
    exact this

theorem arecSet_ok {hc : A → Word} {gold : Nat → Nat} (hg : ∀ n, n ≤ gold n) (a : A) :
    ∀ (n : Node A) (i : Nat), WF hc n → i < (chars n).length → SetSafe n i a →
      Gives hc (arecSet gold n i a) ((chars n).set i a) := by
  intro n
  induction n with
  | null => intro i w hi _; simp [chars] at hi
  | comn h m =>
    intro i w hi _
    rw [arecSet]
    split
    · rw [setAt_ok (m := m) hi, Option.map_some]; exact .mk (cacheOk_changed _ _) rfl
    · exact baseSet_ok w trivial hi a
  | const h m => intro i w hi _; exact baseSet_ok w trivial hi a
  | same h s v =>
    intro i w hi hs
    simp only [chars, List.length_replicate] at hi
    rw [arecSet]
    split
    · rename_i e; subst e
      exact .mk w (by rw [chars, set_same])
    split
    · rename_i e h1
      subst h1
      have : i = 0 := by omega
      subst this
      rcases hs with hs | hs | hs | hs
      · exact absurd hs e
      · rw [if_pos hs.2.1]
        exact .mk (by intro w hw; rw [hs.2.2] at hw; cases hw) (by simp [chars])
      · exact absurd rfl hs.1
      · omega
    split
    · rename_i e h1 h2
      rcases hs with hs | hs | hs | hs
      · exact absurd hs e
      · exact absurd hs.1 h1
      · omega
      · exact sameSetLong_ok w h2 hs.2
    · exact baseSet_ok w trivial (by simpa [chars] using hi) a
  | substr h t b s ih =>
    intro i w hi hs
    have h1 := w.2.1
    have ls : (chars (.substr h t b s)).length = s := by simp [chars]; omega
    rw [SetSafe] at hs
    rw [arecSet]
    split
    · rename_i hu
      rw [if_pos hu] at hs
      refine (ih (i + b) w.1 (by omega) hs).map fun n wn en => ⟨⟨wn, ?_, cacheOk_changed _ _⟩, ?_⟩
      · rw [en]; simp; omega
      · rw [chars, chars, en, Nat.add_comm i, set_drop, set_take]
    · rename_i hu
      rw [if_neg hu] at hs
      exact baseSet_ok w (by rw [ls]; exact hs) hi a
  | head h m t ts u ih =>
    intro i w hi hs
    have wt := w.2.1
    have wu := w.2.2.1
    have lu : (m.drop (m.length - u)).length = u := by simp; omega
    have ls : (chars (.head h m t ts u)).length = u + ts := by rw [chars, List.length_append, lu]; omega
    rw [SetSafe] at hs
    rw [arecSet]
    split
    · rename_i hu
      rw [if_pos hu] at hs
      split
      · rename_i h0
        rw [setAt_ok (by omega), Option.bind_some]
        have := headChanged_ok hg (hc := hc) t (m.set (m.length - u + i) a) ts u w.1 wt (by simpa using wu)
        rw [List.length_set, set_drop] at this
        rw [chars, set_left (by omega)]
        exact this
      · refine (ih (i - u) w.1 (by omega) (hs (by omega))).bind fun n wn en => ?_
        have := headChanged_ok hg (hc := hc) n m ts u wn (by rw [en, wt]; simp) wu
        rw [en] at this
        rw [chars, set_right (by omega), lu]
        exact this
    · rename_i hu
      rw [if_neg hu] at hs
      exact baseSet_ok w (by rw [ls]; exact hs) hi a
  | endA h m t ts u ih =>
    intro i w hi hs
    have wt := w.2.1
    have wu := w.2.2.1
    have ls : (chars (.endA h m t ts u)).length = u + ts := by simp [chars]; omega
    rw [SetSafe] at hs
    rw [arecSet]
    split
    · rename_i hu
      rw [if_pos hu] at hs
      split
      · rename_i h0
        refine (ih i w.1 (by omega) (hs h0)).bind fun n wn en => ?_
        have := endChanged_ok hg (hc := hc) n m ts u wn (by rw [en, wt]; simp) wu
        rw [en] at this
        rw [chars, set_left (by omega)]
        exact this
      · rw [setAt_ok (by omega), Option.bind_some]
        have := endChanged_ok hg (hc := hc) t (m.set (i - ts) a) ts u w.1 wt (by simpa using wu)
        rw [set_take] at this
        rw [chars, set_right (by omega), ← wt]
        exact this
    · rename_i hu
      rw [if_neg hu] at hs
      exact baseSet_ok w (by rw [ls]; exact hs) hi a
  | sum h x y xs ys ihx ihy =>
    intro i w hi hs
    have wx := w.2.2.1
    have wy := w.2.2.2.1
    have ls : (chars (.sum h x y xs ys)).length = xs + ys := by rw [chars, List.length_append]; omega
    rw [SetSafe] at hs
    rw [arecSet]
    split
    · rename_i hu
      rw [if_pos hu] at hs
      split
      · rename_i h0
        refine (ihx i w.1 (by omega) (hs.1 h0)).map fun n wn en => ⟨⟨wn, w.2.1, ?_, wy, cacheOk_changed _ _⟩, ?_⟩
        · rw [en, wx]; simp
        · rw [chars, chars, en, set_left (by omega)]
      · refine (ihy (i - xs) w.2.1 (by omega) (hs.2 (by omega))).map fun n wn en => ⟨⟨w.1, wn, wx, ?_, cacheOk_changed _ _⟩, ?_⟩
        · rw [en, wy]; simp
        · rw [chars, chars, en, set_right (by omega), ← wx]
    · rename_i hu
      rw [if_neg hu] at hs
      exact baseSet_ok w (by rw [ls]; exact hs) hi a
  | erased h t ts p sz ih =>
    intro i w hi hs
    have wt := w.2.1
    have wp := w.2.2.1
    have ls : (chars (.erased h t ts p sz)).length = ts - sz := by rw [wt]; exact length_eraseAt wp
    have l1 : ((chars t).take p).length = p := by simp; omega
    rw [SetSafe] at hs
    rw [arecSet]
    split
    · rename_i hu
      rw [if_pos hu] at hs
      split
      · rename_i h0
        refine (ih (i + sz) w.1 (by omega) (hs.1 h0)).map fun n wn en => ⟨⟨wn, ?_, ?_, cacheOk_changed _ _⟩, ?_⟩
        · rw [en, wt]; simp
        · rw [en]; simp; omega
        · rw [chars, chars, en, set_right (by omega), l1, set_take_after (by omega),
            show i + sz = p + sz + (i - p) by omega, set_drop]
      · refine (ih i w.1 (by omega) (hs.2 (by omega))).map fun n wn en => ⟨⟨wn, ?_, ?_, cacheOk_changed _ _⟩, ?_⟩
        · rw [en, wt]; simp
        · rw [en]; simp; omega
        · rw [chars, chars, en, set_left (by omega), set_take, set_drop_before (by omega)]
    · rename_i hu
      rw [if_neg hu] at hs
      exact baseSet_ok w (by rw [ls]; exact hs) hi a
  | inserted h t x ts p sz iht ihx =>
    intro i w hi hs
    have wt := w.2.2.1
    have wi := w.2.2.2.1
    have wp := w.2.2.2.2.1
    have l1 : ((chars t).take p).length = p := by simp; omega
    have ls : (chars (.inserted h t x ts p sz)).length = ts + sz := by
      rw [chars, List.length_append, List.length_append, List.length_drop]; omega
    rw [SetSafe] at hs
    rw [arecSet]
    split
    · rename_i hu
      rw [if_pos hu] at hs
      obtain ⟨s1, s2, s3⟩ := hs
      split
      · rename_i h0
        obtain ⟨st, sf⟩ := s2 h0.1 h0.2
        rw [replaces_of_stays st, if_neg (by simp)]
        refine (ihx (i - p) w.2.1 (by omega) sf).map fun n wn en => ⟨⟨w.1, wn, wt, ?_, wp, cacheOk_changed _ _⟩, ?_⟩
        · rw [en, wi]; simp
        · rw [chars, chars, en, set_left (by rw [List.length_append]; omega), set_right (by omega), l1]
      · rename_i h0
        by_cases h1 : i ≥ p + sz
        · obtain ⟨st, sf⟩ := s3 h1
          rw [replaces_of_stays st, if_neg (by simp), if_pos h1]
          refine (iht (i - sz) w.1 (by omega) sf).map fun n wn en => ⟨⟨wn, w.2.1, ?_, wi, ?_, cacheOk_changed _ _⟩, ?_⟩
          · rw [en, wt]; simp
          · rw [en]; simpa using wp
          · rw [chars, chars, en, set_right (by rw [List.length_append]; omega), set_take_after (by omega), List.length_append, l1,
              show i - sz = p + (i - (p + (chars x).length)) by omega, set_drop]
        · obtain ⟨st, sf⟩ := s1 (by omega)
          rw [replaces_of_stays st, if_neg (by simp), if_neg h1]
          refine (iht i w.1 (by omega) sf).map fun n wn en => ⟨⟨wn, w.2.1, ?_, wi, ?_, cacheOk_changed _ _⟩, ?_⟩
          · rw [en, wt]; simp
          · rw [en]; simpa using wp
          · rw [chars, chars, en, set_left (by rw [List.length_append]; omega), set_left (by omega), set_take, set_drop_before (by omega)]
    · rename_i hu
      rw [if_neg hu] at hs
      exact baseSet_ok w (by rw [ls]; exact hs) hi a

/-! ### Histories -/

theorem Gives2.rest {hc : A → Word} {r : Option (Node A × Node A)} {x l : List A} (g : Gives2 hc r x l) :
    Gives hc (r.map (·.2)) l := by
  obtain ⟨a, b, rfl, _, _, wb, eb⟩ := g
  exact ⟨b, rfl, wb, eb⟩

theorem runEdit_ok {hc : A → Word} {gold : Nat → Nat} (hg : ∀ n, n ≤ gold n) {n : Node A} (w : WF hc n)
    {e : Edit A} (hr : InRange hc (chars n).length e) (hs : Safe n e) :
    Gives hc (runEdit gold n e) (onList (chars n) e) := by
  cases e with
  | pushBack str => exact endV_ok hg str n w
  | pushFront str => exact beginV_ok hg str n w
  | pushBackString str => exact endP_ok hg hr n w
  | pushFrontString str => exact beginP_ok hg hr n w
  | insert pos str => exact insertV_ok hg str n pos w hr hs
  | insertString pos str => exact insertP_ok w hr.1 hr.2
  | erase pos k => exact ⟨_, rfl, erase_ok n pos k w hr⟩
  | removeFront k => exact removeFront_ok hg n true k w hr hs
  | removeBack k => exact removeBack_ok hg n true k w hr hs
  | popFront k => exact (popFront_ok hg n k w hr hs).rest
  | popBack k => exact (popBack_ok hg n k w hr hs).rest
  | substring b s => exact getSubstr_ok hc n w b s hr
  | assign i a => exact arecSet_ok hg a n i w hr hs

end ELC.StrEdit
