import Verif.Val.Spec
/-!
Chains of replacements.
-/
namespace ELC.Val

/-- From cell `i`, `n` replacements lead to cell `r`, which is not replaced. -/
inductive Chain (cells : List Cell) : Nat → Nat → Nat → Prop where
  | root {i c} : cells[i]? = some c → c.fwd = i → Chain cells i 0 i
  | step {i n r c} : cells[i]? = some c → c.fwd ≠ i → Chain cells c.fwd n r → Chain cells i (n + 1) r

/-- A cell that is replaced. -/
def moved (cells : List Cell) (i : Nat) : Bool := (cells[i]?).any fun c => decide (c.fwd ≠ i)

/-- How many cells are replaced. -/
def movedNum (cells : List Cell) : Nat := (List.range cells.length).countP (moved cells)

/-- Every chain ends. -/
def Ends (cells : List Cell) : Prop := ∀ i, i < cells.length → ∃ n r, Chain cells i n r ∧ n ≤ movedNum cells

theorem movedNum_le (cells : List Cell) : movedNum cells ≤ cells.length := by
  have := List.countP_le_length (p := moved cells) (l := List.range cells.length)
  simpa [movedNum] using this

theorem Chain.follow {cells : List Cell} {i n r : Nat} (h : Chain cells i n r) :
    ∀ fuel, n < fuel → follow cells fuel i = .ok r := by
  induction h with
  | root h1 h2 =>
    intro fuel hf
    obtain ⟨f, rfl⟩ : ∃ f, fuel = f + 1 := ⟨fuel - 1, by omega⟩
    simp [Val.follow, h1, h2]
  | step h1 h2 _ ih =>
    intro fuel hf
    obtain ⟨f, rfl⟩ : ∃ f, fuel = f + 1 := ⟨fuel - 1, by omega⟩
    simp [Val.follow, h1, h2, ih f (by omega)]

theorem Chain.isRoot {cells : List Cell} {i n r : Nat} (h : Chain cells i n r) :
    ∃ c, cells[r]? = some c ∧ c.fwd = r := by
  induction h with
  | root h1 h2 => exact ⟨_, h1, h2⟩
  | step _ _ _ ih => exact ih

theorem Chain.lt {cells : List Cell} {i n r : Nat} (h : Chain cells i n r) : r < cells.length := by
  obtain ⟨c, h, _⟩ := h.isRoot
  exact (List.getElem?_eq_some_iff.1 h).1

theorem Chain.unique {cells : List Cell} {i n r m r' : Nat} (h : Chain cells i n r) (h' : Chain cells i m r') :
    n = m ∧ r = r' := by
  induction h generalizing m with
  | root h1 h2 =>
    cases h' with
    | root => exact ⟨rfl, rfl⟩
    | step h3 h4 => rw [h1] at h3; cases h3; exact absurd h2 h4
  | step h1 h2 _ ih =>
    cases h' with
    | root h3 h4 => rw [h1] at h3; cases h3; exact absurd h4 h2
    | step h3 h4 h5 =>
      rw [h1] at h3; cases h3
      obtain ⟨rfl, rfl⟩ := ih h5
      exact ⟨rfl, rfl⟩

theorem Ends.getPtr {cells : List Cell} (h : Ends cells) {i : Nat} (hi : i < cells.length) :
    ∃ n r, Chain cells i n r ∧ getPtr cells i = .ok r ∧ n ≤ movedNum cells := by
  obtain ⟨n, r, hc, hn⟩ := h i hi
  exact ⟨n, r, hc, hc.follow _ (by have := movedNum_le cells; omega), hn⟩

theorem Ends.of_getPtr {cells : List Cell} (h : Ends cells) {i r : Nat} (hi : i < cells.length)
    (hr : Val.getPtr cells i = .ok r) : ∃ n, Chain cells i n r := by
  obtain ⟨n, r', hc, hg, _⟩ := h.getPtr hi
  rw [hg] at hr; cases hr
  exact ⟨n, hc⟩

/-! ### A new cell -/

theorem get_append {cells : List Cell} {c d : Cell} {i : Nat} (h : cells[i]? = some c) :
    (cells ++ [d])[i]? = some c := by
  rw [List.getElem?_append_left (List.getElem?_eq_some_iff.1 h).1, h]

theorem Chain.append {cells : List Cell} {i n r : Nat} (d : Cell) (h : Chain cells i n r) :
    Chain (cells ++ [d]) i n r := by
  induction h with
  | root h1 h2 => exact .root (get_append h1) h2
  | step h1 h2 _ ih => exact .step (get_append h1) h2 ih

theorem Chain.fresh (cells : List Cell) (d : Data) : Chain (cells ++ [⟨d, cells.length⟩]) cells.length 0 cells.length :=
  .root (c := ⟨d, cells.length⟩) (by simp) rfl

theorem movedNum_append (cells : List Cell) (d : Data) :
    movedNum (cells ++ [⟨d, cells.length⟩]) = movedNum cells := by
  unfold movedNum
  rw [List.length_append, List.length_singleton, List.range_succ, List.countP_append]
  have h1 : List.countP (moved (cells ++ [⟨d, cells.length⟩])) [cells.length] = 0 := by
    simp [moved]
  rw [h1, Nat.add_zero]
  apply List.countP_congr
  intro i hi
  have : i < cells.length := List.mem_range.1 hi
  simp [moved, List.getElem?_append_left this]

theorem Ends.append {cells : List Cell} (h : Ends cells) (d : Data) : Ends (cells ++ [⟨d, cells.length⟩]) := by
  intro i hi
  rw [movedNum_append]
  by_cases h1 : i < cells.length
  · obtain ⟨n, r, hc, hn⟩ := h i h1
    exact ⟨n, r, hc.append _, hn⟩
  · have : i = cells.length := by simp at hi; omega
    subst this
    exact ⟨0, _, Chain.fresh _ _, Nat.zero_le _⟩

/-! ### The data of a cell changed -/

/-- The same replacements. -/
def SameFwd (a b : List Cell) : Prop := a.map Cell.fwd = b.map Cell.fwd

theorem SameFwd.length {a b : List Cell} (h : SameFwd a b) : a.length = b.length := by
  have := congrArg List.length h; simpa using this

theorem SameFwd.get {a b : List Cell} (h : SameFwd a b) {i : Nat} {c : Cell} (hc : a[i]? = some c) :
    ∃ c', b[i]? = some c' ∧ c'.fwd = c.fwd := by
  have h1 : (a.map Cell.fwd)[i]? = (b.map Cell.fwd)[i]? := by rw [h]
  simp only [List.getElem?_map, hc, Option.map_some] at h1
  match hb : b[i]? with
  | none => rw [hb] at h1; cases h1
  | some c' =>
    rw [hb] at h1
    simp only [Option.map_some, Option.some.injEq] at h1
    exact ⟨c', rfl, h1.symm⟩

theorem SameFwd.chain {a b : List Cell} (h : SameFwd a b) {i n r : Nat} (hc : Chain a i n r) : Chain b i n r := by
  induction hc with
  | root h1 h2 => obtain ⟨c', h3, h4⟩ := h.get h1; exact .root h3 (h4.trans h2)
  | step h1 h2 _ ih =>
    obtain ⟨c', h3, h4⟩ := h.get h1
    exact .step h3 (by rw [h4]; exact h2) (by rw [h4]; exact ih)

theorem SameFwd.movedNum {a b : List Cell} (h : SameFwd a b) : movedNum a = movedNum b := by
  unfold Val.movedNum
  rw [h.length]
  apply List.countP_congr
  intro i hi
  have hi : i < b.length := List.mem_range.1 hi
  have hi' : i < a.length := by rw [h.length]; exact hi
  have h1 : a[i]? = some a[i] := by simp [hi']
  obtain ⟨c', h3, h4⟩ := h.get h1
  simp [moved, h1, h3, h4]

theorem SameFwd.ends {a b : List Cell} (h : SameFwd a b) (he : Ends a) : Ends b := by
  intro i hi
  obtain ⟨n, r, hc, hn⟩ := he i (by rw [h.length]; exact hi)
  exact ⟨n, r, h.chain hc, by rw [← h.movedNum]; exact hn⟩

theorem sameFwd_set {cells : List Cell} {r : Nat} {c : Cell} (h : cells[r]? = some c) (d : Data) :
    SameFwd cells (cells.set r { c with data := d }) := by
  unfold SameFwd
  rw [List.map_set]
  apply List.ext_getElem?
  intro i
  rw [List.getElem?_set]
  by_cases h1 : r = i
  · subst h1
    have := (List.getElem?_eq_some_iff.1 h).1
    simp [this]
    rw [List.getElem?_eq_some_iff] at h
    obtain ⟨_, h⟩ := h
    rw [h]
  · simp [h1]

/-! ### A cell replaced -/

theorem beReplaceAs_length (cells : List Cell) (i p : Nat) : (beReplaceAs cells i p).length = cells.length := by
  unfold beReplaceAs; split <;> simp

theorem beReplaceAs_ne {cells : List Cell} {i p k : Nat} (h : k ≠ i) : (beReplaceAs cells i p)[k]? = cells[k]? := by
  unfold beReplaceAs
  split
  · rfl
  · rw [List.getElem?_set_ne (by omega)]

theorem beReplaceAs_same {cells : List Cell} {i p : Nat} {c : Cell} (h : cells[i]? = some c) :
    (beReplaceAs cells i p)[i]? = some { c with fwd := p } := by
  unfold beReplaceAs
  rw [h]
  simp [(List.getElem?_eq_some_iff.1 h).1]

theorem beReplaceAs_data {cells : List Cell} {i p k : Nat} {c : Cell} (h : cells[k]? = some c) :
    ∃ f, (beReplaceAs cells i p)[k]? = some ⟨c.data, f⟩ := by
  by_cases hk : k = i
  · subst hk; exact ⟨p, beReplaceAs_same h⟩
  · exact ⟨c.fwd, by rw [beReplaceAs_ne hk, h]⟩

theorem beReplaceAs_self {cells : List Cell} {i : Nat} {c : Cell} (h : cells[i]? = some c) (hc : c.fwd = i) :
    beReplaceAs cells i i = cells := by
  unfold beReplaceAs
  rw [h]
  have h1 := List.getElem?_eq_some_iff.1 h
  obtain ⟨h1, h2⟩ := h1
  have : ({ c with fwd := i } : Cell) = c := by cases c; simp_all
  dsimp only
  rw [this, ← h2]
  exact List.set_getElem_self h1

/-- A chain that comes past the replaced cell now ends at its replacement. -/
theorem Chain.replaced {cells : List Cell} {k n r i p : Nat} (h : Chain cells k n r) (hv : Visits cells k i)
    {c : Cell} (hp : cells[p]? = some c) (hpr : c.fwd = p) (hip : p ≠ i) :
    ∃ m, m ≤ n + 1 ∧ Chain (beReplaceAs cells i p) k m p ∧ (moved cells i = true → m ≤ n) := by
  have hend : Chain (beReplaceAs cells i p) p 0 p := .root (by rw [beReplaceAs_ne hip]; exact hp) hpr
  induction h with
  | @root k d h1 h2 =>
    cases hv with
    | here =>
      refine ⟨1, Nat.le_refl _, .step (beReplaceAs_same h1) hip hend, fun hm => ?_⟩
      simp [moved, h1, h2] at hm
    | step h3 h4 => rw [h1] at h3; cases h3; exact absurd h2 h4
  | @step k n r d h1 h2 _ ih =>
    by_cases hk : k = i
    · subst hk
      exact ⟨1, by omega, .step (beReplaceAs_same h1) hip hend, fun _ => by omega⟩
    · cases hv with
      | here => exact absurd rfl hk
      | step h3 h4 h5 =>
        rw [h1] at h3; cases h3
        obtain ⟨m, hm1, hm2, hm3⟩ := ih h5
        exact ⟨m + 1, by omega, .step (by rw [beReplaceAs_ne hk]; exact h1) h2 hm2, fun h => by have := hm3 h; omega⟩

/-- Other chains stay. -/
theorem Chain.kept {cells : List Cell} {k n r i p : Nat} (h : Chain cells k n r) (hv : ¬ Visits cells k i) :
    Chain (beReplaceAs cells i p) k n r := by
  induction h with
  | @root k d h1 h2 =>
    have hk : k ≠ i := fun he => hv (he ▸ .here)
    exact .root (by rw [beReplaceAs_ne hk]; exact h1) h2
  | @step k n r d h1 h2 _ ih =>
    have hk : k ≠ i := fun he => hv (he ▸ .here)
    exact .step (by rw [beReplaceAs_ne hk]; exact h1) h2 (ih fun h => hv (.step h1 h2 h))

/-- Chains past a cell that is not replaced end there. -/
theorem Chain.visits_root {cells : List Cell} {k n r i : Nat} (h : Chain cells k n r) {c : Cell}
    (hi : cells[i]? = some c) (hc : c.fwd = i) : Visits cells k i ↔ r = i := by
  induction h with
  | @root k d h1 h2 =>
    constructor
    · intro hv
      cases hv with
      | here => rfl
      | step h3 h4 => rw [h1] at h3; cases h3; exact absurd h2 h4
    · rintro rfl; exact .here
  | @step k n r d h1 h2 _ ih =>
    rw [← ih]
    constructor
    · intro hv
      cases hv with
      | here => rw [h1] at hi; cases hi; exact absurd hc h2
      | step h3 h4 h5 => rw [h1] at h3; cases h3; exact h5
    · exact fun hv => .step h1 h2 hv

theorem countP_lt {p q : Nat → Bool} {i : Nat} : ∀ {l : List Nat}, i ∈ l → (∀ x, p x = true → q x = true) →
    p i = false → q i = true → l.countP p < l.countP q
  | [], h, _, _, _ => by cases h
  | a :: l, h, hpq, h1, h2 => by
    have hle : l.countP p ≤ l.countP q := List.countP_mono_left fun x _ => hpq x
    rw [List.countP_cons, List.countP_cons]
    rcases List.mem_cons.1 h with rfl | h'
    · simp [h1, h2]; omega
    · have ih := countP_lt h' hpq h1 h2
      by_cases ha : p a = true
      · simp [ha, hpq a ha]; omega
      · rw [if_neg ha]; omega

theorem moved_replaced {cells : List Cell} {i p : Nat} {c : Cell} (h : cells[i]? = some c) (hip : p ≠ i) (k : Nat) :
    moved (beReplaceAs cells i p) k = (moved cells k || decide (k = i)) := by
  by_cases hk : k = i
  · subst hk
    simp [moved, beReplaceAs_same h, hip]
  · simp [moved, beReplaceAs_ne hk, hk]

/-- Replacing a cell by one that is not replaced keeps all chains ending. -/
theorem Ends.replace {cells : List Cell} (h : Ends cells) {i p : Nat} {d : Cell} (hi : i < cells.length)
    (hp : cells[p]? = some d) (hd : d.fwd = p) : Ends (beReplaceAs cells i p) := by
  by_cases hip : p = i
  · subst hip; rw [beReplaceAs_self hp hd]; exact h
  obtain ⟨c, hc⟩ : ∃ c, cells[i]? = some c := ⟨cells[i], by simp [hi]⟩
  have hle : movedNum cells ≤ movedNum (beReplaceAs cells i p) := by
    unfold movedNum
    rw [beReplaceAs_length]
    exact List.countP_mono_left fun x _ hx => by rw [moved_replaced hc hip]; simp [hx]
  have hlt : moved cells i = false → movedNum cells < movedNum (beReplaceAs cells i p) := by
    intro hm
    unfold movedNum
    rw [beReplaceAs_length]
    refine countP_lt (i := i) (List.mem_range.2 hi) (fun x hx => ?_) hm ?_
    · rw [moved_replaced hc hip]; simp [hx]
    · rw [moved_replaced hc hip]; simp
  intro k hk
  rw [beReplaceAs_length] at hk
  obtain ⟨n, r, hch, hn⟩ := h k hk
  by_cases hv : Visits cells k i
  · obtain ⟨m, h1, h2, h3⟩ := hch.replaced hv hp hd hip
    refine ⟨m, p, h2, ?_⟩
    cases hm : moved cells i with
    | true => have := h3 hm; omega
    | false => have := hlt hm; omega
  · exact ⟨n, r, hch.kept hv, by omega⟩

end ELC.Val
