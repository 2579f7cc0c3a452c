import Verif.Names.Spec

/-
Name spaces: C123 to C125.
-/
namespace ELC.Names
open Spec

/-! ### Looking up -/

theorem search_stop {h : Heap} {x : Name} {p : Ref} (fuel : Nat) (hs : truthy p = false ∨ Declares h x p) :
    search h x (fuel + 1) p = some p := by
  unfold search
  rw [if_neg]
  rcases hs with hs | hs | hs <;> simp [hs]

theorem search_next {h : Heap} {x : Name} {p : Ref} (fuel : Nat) (hp : truthy p = true) (hd : ¬ Declares h x p) :
    search h x (fuel + 1) p = search h x fuel (look h p .up) := by
  unfold Declares at hd
  rw [not_or, Bool.not_eq_true, Bool.not_eq_true] at hd
  conv => lhs; unfold search
  rw [if_pos (by simp [hp, hd.1, hd.2])]

theorem search_mono {h : Heap} {x : Name} {r : Ref} : ∀ {n m : Nat} {p : Ref}, n ≤ m → search h x n p = some r →
    search h x m p = some r := by
  intro n
  induction n with
  | zero => intro m p _ h; cases h
  | succ n ih =>
    intro m p hm hs
    obtain ⟨m, rfl⟩ : ∃ k, m = k + 1 := ⟨m - 1, by omega⟩
    by_cases hp : truthy p = true ∧ ¬ Declares h x p
    · rw [search_next n hp.1 hp.2] at hs
      rw [search_next m hp.1 hp.2]
      exact ih (by omega) hs
    · have hq : truthy p = false ∨ Declares h x p := by
        by_cases h1 : truthy p = true
        · right; by_contra h2; exact hp ⟨h1, h2⟩
        · left; simpa using h1
      rw [search_stop n hq] at hs
      rw [search_stop m hq]
      exact hs

/-- A computation has at most one result. -/
theorem yields_unique {h : Heap} {x : Name} {p r r' : Ref} (h1 : Yields (fun n => search h x n p) r)
    (h2 : Yields (fun n => search h x n p) r') : r = r' := by
  obtain ⟨n, hn⟩ := h1
  obtain ⟨m, hm⟩ := h2
  have a := search_mono (Nat.le_max_left n m) hn
  have b := search_mono (Nat.le_max_right n m) hm
  rw [a] at b
  injection b

theorem search_scopes {h : Heap} {x : Name} {p e : Ref} {ps : List Ref} (hs : Scopes h p ps e) :
    search h x (ps.length + 1) p = some (innermost h x ps e) := by
  induction hs with
  | outside hp => exact search_stop 0 (Or.inl hp)
  | @inside p e ps hp _ ih =>
    by_cases hd : Declares h x p
    · rw [search_stop _ (Or.inr hd)]
      simp [innermost, hd]
    · rw [List.length_cons, search_next _ hp hd, ih]
      simp [innermost, hd]

theorem yields_map {A B : Type} {f : Nat → Option A} {a : A} (g : A → B) (h : Yields f a) :
    Yields (fun n => (f n).map g) (g a) := by
  obtain ⟨n, hn⟩ := h
  exact ⟨n, by dsimp only; rw [hn]; rfl⟩

theorem look_false {h : Heap} {p : Ref} (hp : truthy p = false) (x : Name) : look h p x = p := by
  cases p <;> simp [truthy] at hp <;> rfl

theorem declares_false {h : Heap} {p : Ref} (hp : truthy p = false) (x : Name) : ¬ Declares h x p := by
  unfold Declares typeOf
  rw [look_false hp, look_false hp, look_false hp]
  simp [hp]

theorem scopes_end {h : Heap} {p e : Ref} {ps : List Ref} (hs : Scopes h p ps e) : truthy e = false := by
  induction hs with
  | outside hp => exact hp
  | inside _ _ ih => exact ih

/-- C123: with finitely many name spaces around the program, a symbol is looked up in the innermost one that declares it,
and so are its type and whether it exists; a symbol none of them declares is what is outside, nil or void. -/
theorem lookup_innermost (h : Heap) (now e : Ref) (ps : List Ref) (hs : Scopes h now ps e) (x : Name) :
    Yields (fun n => getSymbol h n now x) (look h (innermost h x ps e) x) ∧
    Yields (fun n => getSymbolType h n now x) (typeOf h (innermost h x ps e) x) ∧
    Yields (fun n => hasSymbol h n now x) (decide (∃ p ∈ ps, Declares h x p)) := by
  have hy : Yields (fun n => search h x n now) (innermost h x ps e) := ⟨_, search_scopes hs⟩
  refine ⟨yields_map _ hy, yields_map _ hy, ?_⟩
  have := yields_map (fun p => truthy (look h p x) || truthy (typeOf h p x)) hy
  have e2 : (truthy (look h (innermost h x ps e) x) || truthy (typeOf h (innermost h x ps e) x)) =
      decide (∃ p ∈ ps, Declares h x p) := by
    have e3 : (truthy (look h (innermost h x ps e) x) || truthy (typeOf h (innermost h x ps e) x)) =
        decide (Declares h x (innermost h x ps e)) := by
      rw [Bool.eq_iff_iff, decide_eq_true_eq, Bool.or_eq_true, Declares]
    rw [e3, decide_eq_decide]
    unfold innermost
    constructor
    · intro hd
      match hf : ps.find? fun p => decide (Declares h x p) with
      | some q => exact ⟨q, List.mem_of_find?_eq_some hf, by simpa using List.find?_some hf⟩
      | none =>
        rw [hf] at hd
        exact absurd hd (declares_false (scopes_end hs) x)
    · rintro ⟨p, hp, hd⟩
      match hf : ps.find? fun p => decide (Declares h x p) with
      | some q => simpa using List.find?_some hf
      | none => exact absurd hd (by simpa using List.find?_eq_none.1 hf p hp)
  rw [e2] at this
  exact this

/-- C123: a symbol that the name space the program is in declares is the one there, whatever is around. -/
theorem lookup_shadows (h : Heap) (now : Ref) (x : Name) (hd : Declares h x now) :
    Yields (fun n => getSymbol h n now x) (look h now x) ∧ Yields (fun n => hasSymbol h n now x) true := by
  have hy : Yields (fun n => search h x n now) now := ⟨1, search_stop 0 (Or.inr hd)⟩
  refine ⟨yields_map _ hy, ?_⟩
  have := yields_map (fun p => truthy (look h p x) || truthy (typeOf h p x)) hy
  rw [show (truthy (look h now x) || truthy (typeOf h now x)) = true by rw [Bool.or_eq_true]; exact hd] at this
  exact this

/-- Two name spaces, both with the symbol 7. -/
def nested : Heap := [.table [(.sym 7, .t), (.sym 8, .node 1)], .table [(.up, .node 0), (.sym 7, .node 1)]]

example : Scopes nested (.node 1) [.node 1, .node 0] .void :=
  .inside rfl (.inside rfl (.outside rfl))

/-- C123 is false of the program: a symbol whose value is nil is not found.  In the root, where `nil` is nil, the symbol
`nil` does not exist and is void; around it another value can show through. -/
theorem lookup_nil_refuted : look initial (.node 0) (.sym 1) = .nil ∧
    hasSymbol initial 2 (.node 0) (.sym 1) = some false ∧ getSymbol initial 2 (.node 0) (.sym 1) = some .void ∧
    getSymbol [.table [(.sym 7, .t)], .table [(.up, .node 0), (.sym 7, .nil)]] 2 (.node 1) (.sym 7) = some .t := by
  refine ⟨?_, ?_, ?_, ?_⟩ <;> decide

/-- C123: the other two names of the root. -/
theorem initial_symbols : getSymbol initial 1 (.node 0) (.sym 0) = some .t ∧
    getSymbol initial 1 (.node 0) (.sym 2) = some .void ∧ hasSymbol initial 1 (.node 0) (.sym 2) = some true := by
  refine ⟨?_, ?_, ?_⟩ <;> decide

/-- C123 is false of the program: if a name space is around itself, looking up a symbol it does not declare never ends. -/
theorem lookup_cycle_refuted (n : Nat) : search [.table [(.up, .node 0)]] (.sym 7) n (.node 0) = none := by
  induction n with
  | zero => rfl
  | succ n ih => rw [search_next n rfl (by decide)]; exact ih

/-- The `k`-th name space outwards. -/
def outwards (h : Heap) (p : Ref) : Nat → Ref
  | 0 => p
  | k + 1 => outwards h (look h p .up) k

/-- C123, exactly: looking up ends if and only if, going outwards, a name space that declares the symbol is met or there
is no further one. -/
theorem lookup_ends_characterised (h : Heap) (now : Ref) (x : Name) :
    (∃ r, Yields (fun n => search h x n now) r) ↔
      ∃ k, truthy (outwards h now k) = false ∨ Declares h x (outwards h now k) := by
  constructor
  · rintro ⟨r, n, hn⟩
    dsimp only at hn
    induction n generalizing now with
    | zero => cases hn
    | succ n ih =>
      by_cases hp : truthy now = true ∧ ¬ Declares h x now
      · rw [search_next n hp.1 hp.2] at hn
        obtain ⟨k, hk⟩ := ih _ hn
        exact ⟨k + 1, hk⟩
      · refine ⟨0, ?_⟩
        show truthy now = false ∨ Declares h x now
        by_cases h1 : truthy now = true
        · right; by_contra h2; exact hp ⟨h1, h2⟩
        · left; simpa using h1
  · rintro ⟨k, hk⟩
    induction k generalizing now with
    | zero => exact ⟨now, 1, search_stop 0 hk⟩
    | succ k ih =>
      by_cases hp : truthy now = true ∧ ¬ Declares h x now
      · obtain ⟨r, n, hn⟩ := ih _ hk
        exact ⟨r, n + 1, by dsimp only; rw [search_next n hp.1 hp.2]; exact hn⟩
      · refine ⟨now, 1, search_stop 0 ?_⟩
        by_cases h1 : truthy now = true
        · right; by_contra h2; exact hp ⟨h1, h2⟩
        · left; simpa using h1

/-! ### Entering and leaving -/

/-- C124: entering a name space and leaving it again leads back, if the name space entered is one in which `..` is where
the program was. -/
theorem enter_leave_partial (h : Heap) (now : Ref) (x : Name) (hn : truthy now = true)
    (hx : truthy (look h now x) = true) (hup : look h (look h now x) .up = now) :
    ∃ p, Yields (fun n => enter h n now x) p ∧ Yields (fun n => leave h n p) now := by
  refine ⟨look h now x, (lookup_shadows h now x (Or.inl hx)).1, ?_⟩
  have := (lookup_shadows h (look h now x) .up (Or.inl (by rw [hup]; exact hn))).1
  rw [hup] at this
  exact this

example : truthy (look nested (.node 0) (.sym 8)) = true ∧ look nested (look nested (.node 0) (.sym 8)) .up = .node 0 := by
  decide

theorem getSymbol_void (h : Heap) (n : Nat) (x : Name) : getSymbol h (n + 1) .void x = some .void := by
  rw [getSymbol, search_stop n (Or.inl rfl)]; rfl

/-- C124 is false of the program: leaving the root, and entering a name space that does not exist, lead to void. -/
theorem enter_unknown_refuted : leave initial 2 (.node 0) = some .void ∧
    enter initial 2 (.node 0) (.sym 7) = some .void := by decide

/-- C124, exactly: and from there nothing leads back, and every symbol is void. -/
theorem lost_characterised (h : Heap) (n : Nat) (ms : List Move) (x : Name) :
    moves h (n + 1) .void ms = some .void ∧ getSymbol h (n + 1) .void x = some .void ∧
    hasSymbol h (n + 1) .void x = some false := by
  refine ⟨?_, getSymbol_void h n x, ?_⟩
  · induction ms with
    | nil => rfl
    | cons m ms ih =>
      cases m with
      | enter x => rw [moves, enter, getSymbol_void]; exact ih
      | leave => rw [moves, leave, enter, getSymbol_void]; exact ih
  · rw [hasSymbol, search_stop n (Or.inl rfl)]; rfl

/-- C124, exactly: when entering a name space leads to one that is no name space. -/
theorem enter_outside_characterised (h : Heap) (now e : Ref) (ps : List Ref) (hs : Scopes h now ps e) (x : Name) (r : Ref)
    (hr : Yields (fun n => enter h n now x) r) :
    truthy r = false ↔ truthy (look h (innermost h x ps e) x) = false := by
  have h1 := (lookup_innermost h now e ps hs x).1
  have : r = look h (innermost h x ps e) x := by
    obtain ⟨n, hn⟩ := hr
    obtain ⟨m, hm⟩ := h1
    dsimp only [enter, getSymbol] at hn hm
    match h2 : search h x n now, h3 : search h x m now with
    | some a, some b =>
      have := yields_unique ⟨n, h2⟩ ⟨m, h3⟩
      rw [h2, Option.map_some, Option.some.injEq] at hn
      rw [h3, Option.map_some, Option.some.injEq] at hm
      rw [← hn, ← hm, this]
    | none, _ => rw [h2] at hn; cases hn
    | some _, none => rw [h3] at hm; cases hm
  rw [this]

/-! ### Assigning -/

theorem lookup_put (m : List (Name × Ref)) (x y : Name) (v : Ref) :
    (put m x v).lookup y = if y = x then some v else m.lookup y := by
  induction m with
  | nil =>
    by_cases h : y = x
    · subst h; simp [put]
    · have : (y == x) = false := by simp [h]
      simp [put, List.lookup, this, h]
  | cons p m ih =>
    obtain ⟨z, w⟩ := p
    unfold put
    by_cases hz : z = x
    · rw [if_pos hz]
      by_cases h : y = x
      · subst h; subst hz; simp
      · have h2 : (y == z) = false := by rw [hz]; simp [h]
        simp [List.lookup, h2, h]
    · rw [if_neg hz]
      by_cases h : y = z
      · subst h; simp [hz]
      · have h2 : (y == z) = false := by simp [h]
        rw [List.lookup, h2]
        simp only [ih, List.lookup, h2]

/-- What is found after an assignment. -/
theorem look_store {h : Heap} {i : Nat} {m : List (Name × Ref)} (hi : h[i]? = some (.table m)) (x : Name) (v p : Ref)
    (y : Name) : look (store h (.node i) x v) p y = if p = .node i ∧ y = x then v else look h p y := by
  have hlt : i < h.length := by
    by_contra hc
    rw [List.getElem?_eq_none (by omega)] at hi
    cases hi
  have e : store h (.node i) x v = h.set i (.table (put m x v)) := by simp only [store, hi]
  rw [e]
  match p with
  | .void => simp [look]
  | .nil => simp [look]
  | .t => simp [look]
  | .node j =>
    by_cases hj : j = i
    · subst hj
      simp only [look, List.getElem?_set_self hlt, hi, lookup_put, true_and]
      by_cases hy : y = x
      · rw [if_pos hy, if_pos hy]; rfl
      · rw [if_neg hy, if_neg hy]
    · have h1 : (h.set i (.table (put m x v)))[j]? = h[j]? := List.getElem?_set_ne (Ne.symm hj)
      have h2 : ¬ ((Ref.node j = Ref.node i) ∧ y = x) := by
        rintro ⟨h3, _⟩; injection h3 with h3; exact hj h3
      rw [if_neg h2]
      simp only [look, h1]

/-- C125: a symbol that is declared can be assigned to, and has the value afterwards, if the value is true or the symbol
has a type there.  (No name space on the way has the one the symbol is in as its table of types.) -/
theorem assign_partial (h : Heap) (now : Ref) (n k : Nat) (v : Ref) (i : Nat) (m : List (Name × Ref))
    (hq : search h (.sym k) n now = some (.node i)) (hi : h[i]? = some (.table m))
    (ht : ∀ p, look h p .types ≠ .node i) (hv : truthy v = true ∨ truthy (typeOf h (.node i) (.sym k)) = true) :
    ∃ h', assign h n now (.sym k) v = some h' ∧ search h' (.sym k) n now = some (.node i) ∧
      getSymbol h' n now (.sym k) = some v ∧
      (∀ p y, (p, y) ≠ (.node i, .sym k) → look h' p y = look h p y) := by
  refine ⟨store h (.node i) (.sym k) v, by rw [assign, hq]; rfl, ?_⟩
  have hl := fun p y => look_store hi (.sym k) v p y
  have hother : ∀ p y, (p, y) ≠ (Ref.node i, Name.sym k) → look (store h (.node i) (.sym k) v) p y = look h p y := by
    intro p y hne
    rw [hl, if_neg]
    rintro ⟨rfl, rfl⟩
    exact hne rfl
  have hself : look (store h (.node i) (.sym k) v) (.node i) (.sym k) = v := by rw [hl, if_pos ⟨rfl, rfl⟩]
  have htype : ∀ p, typeOf (store h (.node i) (.sym k) v) p (.sym k) = typeOf h p (.sym k) := by
    intro p
    unfold typeOf
    rw [hother p .types (by intro hc; injection hc with _ hc; cases hc)]
    refine hother _ _ ?_
    intro hc
    injection hc with hc _
    exact ht p hc
  have hs : search (store h (.node i) (.sym k) v) (.sym k) n now = some (.node i) := by
    clear hself
    induction n generalizing now with
    | zero => cases hq
    | succ n ih =>
      by_cases hp : now = .node i
      · subst hp
        refine search_stop n (Or.inr ?_)
        unfold Declares
        rw [htype, hl, if_pos ⟨rfl, rfl⟩]
        exact hv
      · have hsame : look (store h (.node i) (.sym k) v) now (.sym k) = look h now (.sym k) :=
          hother now _ (by intro hc; injection hc with hc _; exact hp hc)
        have hd : Declares (store h (.node i) (.sym k) v) (.sym k) now ↔ Declares h (.sym k) now := by
          unfold Declares; rw [htype, hsame]
        by_cases hp2 : truthy now = true ∧ ¬ Declares h (.sym k) now
        · rw [search_next n hp2.1 hp2.2] at hq
          rw [search_next n hp2.1 (fun hc => hp2.2 (hd.1 hc)), hother now .up (by intro hc; injection hc with _ hc; cases hc)]
          exact ih _ hq
        · have : truthy now = false ∨ Declares h (.sym k) now := by
            by_cases h1 : truthy now = true
            · right; by_contra h2; exact hp2 ⟨h1, h2⟩
            · left; simpa using h1
          rw [search_stop n this] at hq
          injection hq with hq
          exact absurd hq hp
  refine ⟨hs, ?_, hother⟩
  rw [getSymbol, hs, Option.map_some, hself]

example : search nested (.sym 7) 1 (.node 1) = some (.node 1) ∧ ∀ i, look nested (.node i) .types ≠ .node 1 := by
  refine ⟨by decide, ?_⟩
  intro i
  match i with
  | 0 => decide
  | 1 => decide
  | n + 2 => intro hc; cases hc

/-- C125 is false of the program: assigning to a symbol that is not declared does nothing, and one that is given nil is no
longer declared. -/
theorem assign_refuted : assign initial 2 (.node 0) (.sym 7) .t = some initial ∧
    (assign initial 2 (.node 0) (.sym 0) .nil).bind (fun h => getSymbol h 2 (.node 0) (.sym 0)) = some .void ∧
    (assign initial 2 (.node 0) (.sym 0) .nil).bind (fun h => assign h 2 (.node 0) (.sym 0) .t) =
      assign initial 2 (.node 0) (.sym 0) .nil := by
  refine ⟨?_, ?_, ?_⟩ <;> decide

/-- C125, exactly: assigning to a symbol that no name space around declares does nothing. -/
theorem assign_undeclared_characterised (h : Heap) (now e : Ref) (ps : List Ref) (hs : Scopes h now ps e) (x : Name)
    (v : Ref) (hx : ∀ p ∈ ps, ¬ Declares h x p) : assign h (ps.length + 1) now x v = some h := by
  rw [assign, search_scopes hs]
  have : innermost h x ps e = e := by
    unfold innermost
    rw [List.find?_eq_none.2 (by simpa using hx)]
    rfl
  rw [this]
  have he := scopes_end hs
  cases e <;> simp [truthy] at he <;> rfl

end ELC.Names
