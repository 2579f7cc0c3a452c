import Verif.Val.Steps
/-!
The program's values and the user's names: `ρ` says which cell a place is.
-/
namespace ELC.Val
open Spec (Name Names)

structure Rel (ρ : Nat → Nat) (s : State) (I : Names) : Prop where
  good : Good s
  null0 : s.cells[0]? = some ⟨.null, 0⟩
  nulls : ∀ (i : Nat) (c : Cell), s.cells[i]? = some c → c.data = .null → i = 0
  len : s.vals.length = I.names.length
  name : ∀ (x : Nat) (n : Name), I.names[x]? = some n → ∃ i k c, s.vals[x]? = some i ∧ Chain s.cells i k (ρ n.place) ∧
    s.cells[ρ n.place]? = some c ∧ I.places[n.place]? = some c.data ∧ (n.seen = true → i = ρ n.place)
  inj : ∀ (x y : Nat) (n m : Name), I.names[x]? = some n → I.names[y]? = some m → ρ n.place = ρ m.place → n.place = m.place ∨ ρ n.place = 0

theorem rel_start : Rel id init Spec.start :=
  ⟨good_init, rfl, fun i c h _ => by
      have := (List.getElem?_eq_some_iff.1 h).1
      simp [init] at this; exact this, rfl,
    fun x n h => by simp [Spec.start] at h, fun x y n m h => by simp [Spec.start] at h⟩

theorem Rel.place_lt {ρ s I} (h : Rel ρ s I) {x : Nat} {n : Name} (hn : I.names[x]? = some n) : n.place < I.places.length := by
  obtain ⟨i, k, c, _, _, _, h4, _⟩ := h.name x n hn
  exact (List.getElem?_eq_some_iff.1 h4).1

theorem Rel.cell_lt {ρ s I} (h : Rel ρ s I) {x : Nat} {n : Name} (hn : I.names[x]? = some n) : ρ n.place < s.cells.length := by
  obtain ⟨i, k, c, _, _, h3, _, _⟩ := h.name x n hn
  exact (List.getElem?_eq_some_iff.1 h3).1

/-- A value is made to point straight at the cell of a place that has a name. -/
theorem Rel.set {ρ s I} (h : Rel ρ s I) {z : Nat} {m : Name} (hz : I.names[z]? = some m) (x : Nat) :
    Rel ρ { s with vals := s.vals.set x (ρ m.place) } { I with names := I.names.set x ⟨m.place, true⟩ } := by
  obtain ⟨i0, k0, c0, h1, h2, h3, h4, h5⟩ := h.name z m hz
  have key : ∀ y n, (I.names.set x ⟨m.place, true⟩)[y]? = some n →
      (y = x ∧ n = ⟨m.place, true⟩ ∧ x < I.names.length) ∨ (y ≠ x ∧ I.names[y]? = some n) := by
    intro y n hy
    rw [List.getElem?_set] at hy
    by_cases hxy : x = y
    · subst hxy
      by_cases hl : x < I.names.length
      · simp [hl] at hy; exact .inl ⟨rfl, hy.symm, hl⟩
      · simp [hl] at hy
    · simp [hxy] at hy; exact .inr ⟨fun e => hxy e.symm, hy⟩
  have key' : ∀ (y : Nat) (n : Name), (I.names.set x ⟨m.place, true⟩)[y]? = some n →
      ∃ (y' : Nat) (n' : Name), I.names[y']? = some n' ∧ n'.place = n.place := by
    intro y n hy
    rcases key y n hy with ⟨_, rfl, _⟩ | ⟨_, hy⟩
    · exact ⟨z, m, hz, rfl⟩
    · exact ⟨y, n, hy, rfl⟩
  refine ⟨h.good.set h2.lt, h.null0, h.nulls, by simp [h.len], ?_, ?_⟩
  · intro y n hy
    rcases key y n hy with ⟨rfl, rfl, hl⟩ | ⟨hne, hy⟩
    · obtain ⟨c, hc, hcr⟩ := h2.isRoot
      refine ⟨ρ m.place, 0, c0, ?_, .root hc hcr, h3, h4, fun _ => rfl⟩
      show (s.vals.set y (ρ m.place))[y]? = _
      rw [List.getElem?_set_self (by rw [h.len]; exact hl)]
    · obtain ⟨i, k, c, e1, e2, e3, e4, e5⟩ := h.name y n hy
      refine ⟨i, k, c, ?_, e2, e3, e4, e5⟩
      show (s.vals.set x (ρ m.place))[y]? = _
      rw [List.getElem?_set_ne (fun e => hne e.symm)]
      exact e1
  · intro y y' n n' hy hy' he
    obtain ⟨a, na, ha, hpa⟩ := key' y n hy
    obtain ⟨b, nb, hb, hpb⟩ := key' y' n' hy'
    rw [← hpa, ← hpb] at he ⊢
    exact h.inj a b na nb ha hb he

/-- A new place with its own cell, and a value for it. -/
theorem Rel.make {ρ s I} (h : Rel ρ s I) (d : Data) (hd : d ≠ .null) :
    ∃ ρ', Rel ρ' ((s.make d).1.push (s.make d).2) (I.fresh d) := by
  refine ⟨fun q => if q = I.places.length then s.cells.length else ρ q, ?_⟩
  have hold : ∀ (x : Nat) (n : Name), I.names[x]? = some n →
      (if n.place = I.places.length then s.cells.length else ρ n.place) = ρ n.place := fun x n hn => by
    have := h.place_lt hn
    rw [if_neg (by omega)]
  have key : ∀ y n, (I.names ++ [⟨I.places.length, true⟩])[y]? = some n →
      I.names[y]? = some n ∨ (y = I.names.length ∧ n = ⟨I.places.length, true⟩) := by
    intro y n hy
    rw [List.getElem?_append] at hy
    split at hy
    · exact .inl hy
    · have : y - I.names.length = 0 := by
        have := (List.getElem?_eq_some_iff.1 hy).1
        simp at this; omega
      rw [this] at hy
      simp at hy
      exact .inr ⟨by omega, hy.symm⟩
  refine ⟨(h.good.make d).push (by simp [State.make]), get_append h.null0, ?_, by simp [State.push, State.make, Names.fresh, h.len], ?_, ?_⟩
  · intro i c hc hn
    simp only [State.push, State.make] at hc
    rw [List.getElem?_append] at hc
    split at hc
    · exact h.nulls i c hc hn
    · have : i - s.cells.length = 0 := by
        have := (List.getElem?_eq_some_iff.1 hc).1
        simp at this; omega
      rw [this] at hc
      simp at hc
      subst hc
      exact absurd hn hd
  · intro y n hy
    rcases key y n hy with hy | ⟨rfl, rfl⟩
    · obtain ⟨i, k, c, e1, e2, e3, e4, e5⟩ := h.name y n hy
      clear key
      rw [hold y n hy]
      refine ⟨i, k, c, ?_, e2.append _, get_append e3, ?_, e5⟩
      · simp only [State.push, State.make]
        rw [List.getElem?_append_left (List.getElem?_eq_some_iff.1 e1).1]
        exact e1
      · simp only [Names.fresh]
        rw [List.getElem?_append_left (List.getElem?_eq_some_iff.1 e4).1]
        exact e4
    · dsimp only
      rw [if_pos rfl]
      refine ⟨s.cells.length, 0, ⟨d, s.cells.length⟩, ?_, Chain.fresh _ _, by simp [State.push, State.make], by simp [Names.fresh], fun _ => rfl⟩
      simp [State.push, State.make, ← h.len]
  · intro y y' n n' hy hy' he
    rcases key y n hy with hy | ⟨rfl, rfl⟩ <;> rcases key y' n' hy' with hy' | ⟨rfl, rfl⟩
    · rw [hold y n hy, hold y' n' hy'] at he
      rw [hold y n hy]
      exact h.inj y y' n n' hy hy' he
    · have := h.cell_lt hy
      dsimp only at he
      rw [hold y n hy, if_pos rfl] at he
      omega
    · have := h.cell_lt hy'
      dsimp only at he
      rw [hold y' n' hy', if_pos rfl] at he
      omega
    · exact .inl rfl

/-- A new name for a place, the value pointing to the cell the place is. -/
theorem Rel.make_null {ρ s I} (h : Rel ρ s I) : ∃ ρ', Rel ρ' (s.push 0) (I.fresh .null) := by
  refine ⟨fun q => if q = I.places.length then 0 else ρ q, ?_⟩
  have hold : ∀ (x : Nat) (n : Name), I.names[x]? = some n →
      (if n.place = I.places.length then 0 else ρ n.place) = ρ n.place := fun x n hn => by
    have := h.place_lt hn
    rw [if_neg (by omega)]
  have key : ∀ y n, (I.names ++ [⟨I.places.length, true⟩])[y]? = some n →
      I.names[y]? = some n ∨ (y = I.names.length ∧ n = ⟨I.places.length, true⟩) := by
    intro y n hy
    rw [List.getElem?_append] at hy
    split at hy
    · exact .inl hy
    · have : y - I.names.length = 0 := by
        have := (List.getElem?_eq_some_iff.1 hy).1
        simp at this; omega
      rw [this] at hy
      simp at hy
      exact .inr ⟨by omega, hy.symm⟩
  refine ⟨h.good.push h.good.pos, h.null0, h.nulls, by simp [State.push, Names.fresh, h.len], ?_, ?_⟩
  · intro y n hy
    rcases key y n hy with hy | ⟨rfl, rfl⟩
    · obtain ⟨i, k, c, e1, e2, e3, e4, e5⟩ := h.name y n hy
      clear key
      rw [hold y n hy]
      refine ⟨i, k, c, ?_, e2, e3, ?_, e5⟩
      · simp only [State.push]
        rw [List.getElem?_append_left (List.getElem?_eq_some_iff.1 e1).1]
        exact e1
      · simp only [Names.fresh]
        rw [List.getElem?_append_left (List.getElem?_eq_some_iff.1 e4).1]
        exact e4
    · dsimp only
      rw [if_pos rfl]
      exact ⟨0, 0, ⟨.null, 0⟩, by simp [State.push, ← h.len], .root h.null0 rfl, h.null0, by simp [Names.fresh], fun _ => rfl⟩
  · intro y y' n n' hy hy' he
    rcases key y n hy with hy | ⟨rfl, rfl⟩ <;> rcases key y' n' hy' with hy' | ⟨rfl, rfl⟩
    · rw [hold y n hy, hold y' n' hy'] at he
      rw [hold y n hy]
      exact h.inj y y' n n' hy hy' he
    · dsimp only at he ⊢
      rw [if_pos rfl] at he
      exact .inr he
    · dsimp only at he ⊢
      rw [if_pos rfl]
      exact .inr rfl
    · exact .inl rfl

/-- A new name for the place of another one. -/
theorem Rel.copy {ρ s I} (h : Rel ρ s I) {x : Nat} {n : Name} {i : Nat} (hn : I.names[x]? = some n) (hi : s.vals[x]? = some i) :
    Rel ρ (s.push i) { I with names := I.names ++ [n] } := by
  obtain ⟨i0, k0, c0, e1, e2, e3, e4, e5⟩ := h.name x n hn
  rw [hi] at e1; cases e1
  have key : ∀ y m, (I.names ++ [n])[y]? = some m → I.names[y]? = some m ∨ (y = I.names.length ∧ m = n) := by
    intro y m hy
    rw [List.getElem?_append] at hy
    split at hy
    · exact .inl hy
    · have : y - I.names.length = 0 := by
        have := (List.getElem?_eq_some_iff.1 hy).1
        simp at this; omega
      rw [this] at hy
      simp at hy
      exact .inr ⟨by omega, hy.symm⟩
  refine ⟨h.good.push (h.good.lt hi), h.null0, h.nulls, by simp [State.push, h.len], ?_, ?_⟩
  · intro y m hy
    rcases key y m hy with hy | ⟨rfl, rfl⟩
    · obtain ⟨i, k, c, e1, e2, e3, e4, e5⟩ := h.name y m hy
      refine ⟨i, k, c, ?_, e2, e3, e4, e5⟩
      simp only [State.push]
      rw [List.getElem?_append_left (List.getElem?_eq_some_iff.1 e1).1]
      exact e1
    · exact ⟨i, k0, c0, by simp [State.push, ← h.len], e2, e3, e4, e5⟩
  · intro y y' m m' hy hy' he
    have pick : ∀ y m, (I.names ++ [n])[y]? = some m → ∃ y', I.names[y']? = some m := fun y m hy => by
      rcases key y m hy with hy | ⟨_, rfl⟩
      · exact ⟨y, hy⟩
      · exact ⟨x, hn⟩
    obtain ⟨a, ha⟩ := pick y m hy
    obtain ⟨b, hb⟩ := pick y' m' hy'
    exact h.inj a b m m' ha hb he

/-- The place of a name is given another pointer. -/
theorem Rel.assign {ρ s I} (h : Rel ρ s I) {x : Nat} {n : Name} {c : Cell} (hn : I.names[x]? = some n) (hc : s.cells[ρ n.place]? = some c)
    (p : Nat) : Rel ρ { s with cells := s.cells.set (ρ n.place) { c with data := c.data.set p } }
      { I with places := I.places.set n.place (c.data.set p) } := by
  obtain ⟨i0, k0, c0, _, _, e3, e4, _⟩ := h.name x n hn
  rw [hc] at e3; cases e3
  have hf := sameFwd_set hc (c.data.set p)
  have hsame : ρ n.place = 0 → s.cells.set (ρ n.place) { c with data := c.data.set p } = s.cells ∧
      c.data.set p = c.data := by
    intro h0
    rw [h0, h.null0] at hc
    cases hc
    refine ⟨?_, rfl⟩
    rw [h0]
    have h1 := h.null0
    obtain ⟨h1, h2⟩ := List.getElem?_eq_some_iff.1 h1
    show s.cells.set 0 (⟨.null, 0⟩ : Cell) = s.cells
    rw [← h2]
    exact List.set_getElem_self h1
  have hset : ∀ q, q ≠ ρ n.place → (s.cells.set (ρ n.place) { c with data := c.data.set p })[q]? = s.cells[q]? :=
    fun q hq => List.getElem?_set_ne (fun e => hq e.symm)
  have hself : (s.cells.set (ρ n.place) { c with data := c.data.set p })[ρ n.place]? = some { c with data := c.data.set p } := by
    rw [List.getElem?_set_self (List.getElem?_eq_some_iff.1 hc).1]
  refine ⟨h.good.data hc _, ?_, ?_, h.len, ?_, h.inj⟩
  · by_cases h0 : ρ n.place = 0
    · show (s.cells.set (ρ n.place) _)[0]? = _
      rw [(hsame h0).1]; exact h.null0
    · show (s.cells.set (ρ n.place) _)[0]? = _
      rw [hset 0 (fun e => h0 e.symm)]; exact h.null0
  · intro i d hd hdn
    by_cases hi : i = ρ n.place
    · subst hi
      have hd' : (s.cells.set (ρ n.place) { c with data := c.data.set p })[ρ n.place]? = some d := hd
      rw [hself] at hd'; cases hd'
      refine h.nulls _ c hc ?_
      revert hdn; dsimp only; cases c.data <;> simp [Data.set]
    · have hd' : (s.cells.set (ρ n.place) { c with data := c.data.set p })[i]? = some d := hd
      rw [hset i hi] at hd'
      exact h.nulls i d hd' hdn
  · intro y m hy
    obtain ⟨i, k, d, e1, e2, e3, e4', e5⟩ := h.name y m hy
    by_cases hpl : m.place = n.place
    · rw [hpl] at e2 e3 e4' e5 ⊢
      refine ⟨i, k, { c with data := c.data.set p }, e1, hf.chain e2, hself, ?_, e5⟩
      show (I.places.set n.place (c.data.set p))[n.place]? = _
      rw [List.getElem?_set_self (List.getElem?_eq_some_iff.1 e4).1]
    · have hpl' : (I.places.set n.place (c.data.set p))[m.place]? = I.places[m.place]? :=
        List.getElem?_set_ne (fun e => hpl e.symm)
      by_cases hr : ρ m.place = ρ n.place
      · have h0 : ρ n.place = 0 := by
          rcases h.inj x y n m hn hy hr.symm with h' | h'
          · exact absurd h'.symm hpl
          · exact h'
        refine ⟨i, k, d, e1, hf.chain e2, ?_, by rw [hpl']; exact e4', e5⟩
        show (s.cells.set (ρ n.place) _)[ρ m.place]? = _
        rw [(hsame h0).1]; exact e3
      · refine ⟨i, k, d, e1, hf.chain e2, ?_, by rw [hpl']; exact e4', e5⟩
        show (s.cells.set (ρ n.place) _)[ρ m.place]? = _
        rw [hset _ hr]; exact e3

/-- All names of a place become names of another. -/
theorem Rel.merge {ρ s I} (h : Rel ρ s I) {x z : Nat} {n m : Name} {c : Cell} (hn : I.names[x]? = some n) (hm : I.names[z]? = some m)
    (hc : s.cells[ρ n.place]? = some c) (hcn : c.data ≠ .null) :
    Rel ρ { s with cells := beReplaceAs s.cells (ρ n.place) (ρ m.place) } (I.merge n.place m.place) := by
  obtain ⟨i0, k0, c0, _, a2, a3, a4, _⟩ := h.name x n hn
  rw [hc] at a3; cases a3
  obtain ⟨i1, k1, c1, b1, b2, b3, b4, _⟩ := h.name z m hm
  obtain ⟨c', hc', hcr⟩ := a2.isRoot
  rw [hc] at hc'; cases hc'
  obtain ⟨d', hd', hdr⟩ := b2.isRoot
  rw [b3] at hd'; cases hd'
  have hr0 : ρ n.place ≠ 0 := fun e => by rw [e, h.null0] at hc; cases hc; exact hcn rfl
  unfold Names.merge
  by_cases hab : n.place = m.place
  · rw [if_pos hab, ← hab, beReplaceAs_self hc hcr]
    exact h
  rw [if_neg hab]
  have hrp : ρ m.place ≠ ρ n.place := fun e => by
    rcases h.inj x z n m hn hm e.symm with h' | h'
    · exact hab h'
    · exact hr0 h'
  have key : ∀ (y : Nat) (q : Name), (I.names.map fun a => if a.place = n.place then (⟨m.place, false⟩ : Name) else a)[y]? = some q →
      ∃ q0 : Name, I.names[y]? = some q0 ∧ q = if q0.place = n.place then ⟨m.place, false⟩ else q0 := by
    intro y q hy
    rw [List.getElem?_map] at hy
    match h0 : I.names[y]? with
    | none => rw [h0] at hy; cases hy
    | some q0 => rw [h0] at hy; cases hy; exact ⟨q0, rfl, rfl⟩
  have key' : ∀ (y : Nat) (q : Name), (I.names.map fun a => if a.place = n.place then (⟨m.place, false⟩ : Name) else a)[y]? = some q →
      ∃ (y' : Nat) (q' : Name), I.names[y']? = some q' ∧ q'.place = q.place := by
    intro y q hy
    obtain ⟨q0, h0, rfl⟩ := key y q hy
    split
    · exact ⟨z, m, hm, rfl⟩
    · exact ⟨y, q0, h0, rfl⟩
  have hgood : Good { s with cells := beReplaceAs s.cells (ρ n.place) (ρ m.place) } := h.good.replace a2.lt b2
  refine ⟨hgood, ?_, ?_, by simp [h.len], ?_, ?_⟩
  · show (beReplaceAs s.cells _ _)[0]? = _
    rw [beReplaceAs_ne (fun e => hr0 e.symm)]; exact h.null0
  · intro i d hd hdn
    by_cases hi : i = ρ n.place
    · subst hi
      have hd : (beReplaceAs s.cells _ _)[ρ n.place]? = some d := hd
      rw [beReplaceAs_same hc] at hd; cases hd
      exact absurd hdn hcn
    · have hd : (beReplaceAs s.cells _ _)[i]? = some d := hd
      rw [beReplaceAs_ne hi] at hd
      exact h.nulls i d hd hdn
  · intro y q hy
    obtain ⟨q0, h0, rfl⟩ := key y q hy
    obtain ⟨i, k, d, e1, e2, e3, e4, e5⟩ := h.name y q0 h0
    by_cases hq : q0.place = n.place
    · rw [if_pos hq]
      rw [hq] at e2
      obtain ⟨k', _, hk, _⟩ := e2.replaced ((e2.visits_root hc hcr).2 rfl) b3 hdr hrp
      refine ⟨i, k', c1, e1, hk, ?_, b4, fun hf => by cases hf⟩
      show (beReplaceAs s.cells _ _)[ρ m.place]? = _
      rw [beReplaceAs_ne hrp]; exact b3
    · rw [if_neg hq]
      have hne : ρ q0.place ≠ ρ n.place := fun e => by
        rcases h.inj x y n q0 hn h0 e.symm with h' | h'
        · exact hq h'.symm
        · exact hr0 h'
      refine ⟨i, k, d, e1, e2.kept (fun hv => hne ((e2.visits_root hc hcr).1 hv)), ?_, e4, e5⟩
      show (beReplaceAs s.cells _ _)[ρ q0.place]? = _
      rw [beReplaceAs_ne hne]; exact e3
  · intro y y' q q' hy hy' he
    obtain ⟨a, qa, ha, hpa⟩ := key' y q hy
    obtain ⟨b, qb, hb, hpb⟩ := key' y' q' hy'
    rw [← hpa, ← hpb] at he ⊢
    exact h.inj a b qa qb ha hb he

/-- Forgetting the newest name. -/
theorem Rel.pop {ρ s I} (h : Rel ρ s I) {v : List Nat} {i : Nat} {ns : List Name} {n : Name} (hv : s.vals = v ++ [i])
    (hn : I.names = ns ++ [n]) : Rel ρ { s with vals := v } { I with names := ns } := by
  have hl : v.length = ns.length := by
    have := h.len
    rw [hv, hn] at this
    simpa using this
  have key : ∀ (y : Nat) (m : Name), ns[y]? = some m → I.names[y]? = some m := fun y m hy => by
    rw [hn, List.getElem?_append_left (List.getElem?_eq_some_iff.1 hy).1]; exact hy
  refine ⟨⟨h.good.ends, h.good.pos, fun j hj => h.good.vals j (by rw [hv]; simp [hj])⟩, h.null0, h.nulls, hl, ?_, ?_⟩
  · intro y m hy
    obtain ⟨j, k, c, e1, e2, e3, e4, e5⟩ := h.name y m (key y m hy)
    refine ⟨j, k, c, ?_, e2, e3, e4, e5⟩
    rw [hv, List.getElem?_append_left (by rw [hl]; exact (List.getElem?_eq_some_iff.1 hy).1)] at e1
    exact e1
  · intro y y' m m' hy hy' he
    exact h.inj y y' m m' (key y m hy) (key y' m' hy') he

theorem get?_some_of {α} {l : List α} {x : Nat} {a : α} (h : l[x]? = some a) : x < l.length :=
  (List.getElem?_eq_some_iff.1 h).1

/-- One operation that the specification allows. -/
theorem step_rel {ρ s I} (h : Rel ρ s I) (o : Op) {I' : Names} {a : Option Nat}
    (ho : Spec.step true I o = some (I', a)) : ∃ s' ρ', step s o = .ok (s', a) ∧ Rel ρ' s' I' := by
  cases o with
  | fresh =>
    cases ho
    obtain ⟨ρ', h'⟩ := h.make (.var 0) (by simp)
    exact ⟨_, ρ', rfl, h'⟩
  | null =>
    cases ho
    obtain ⟨ρ', h'⟩ := h.make_null
    exact ⟨_, ρ', rfl, h'⟩
  | const p =>
    cases ho
    obtain ⟨ρ', h'⟩ := h.make (.const p) (by simp)
    exact ⟨_, ρ', rfl, h'⟩
  | copy x =>
    match hn : I.names[x]? with
    | none => simp [Spec.step, hn] at ho
    | some n =>
      simp [Spec.step, hn] at ho
      obtain ⟨rfl, rfl⟩ := ho
      obtain ⟨i, k, c, e1, e2, e3, e4, e5⟩ := h.name x n hn
      exact ⟨_, ρ, by simp only [step, State.to_some e1, bind, Except.bind, pure, Except.pure], h.copy hn e1⟩
  | assign x p =>
    match hn : I.names[x]? with
    | none => simp [Spec.step, hn] at ho
    | some n =>
      obtain ⟨i, k, c, e1, e2, e3, e4, e5⟩ := h.name x n hn
      simp [Spec.step, hn, e4] at ho
      obtain ⟨rfl, rfl⟩ := ho
      obtain ⟨k', r, g1, g2⟩ := h.good.get e1
      obtain ⟨_, rfl⟩ := e2.unique g1
      refine ⟨_, ρ, by simp only [step, g2, e3, bind, Except.bind, pure, Except.pure]; rfl, ?_⟩
      have h1 := h.assign hn e3 p
      exact h1.set (z := x) hn x
  | read x =>
    match hn : I.names[x]? with
    | none => simp [Spec.step, hn] at ho
    | some n =>
      obtain ⟨i, k, c, e1, e2, e3, e4, e5⟩ := h.name x n hn
      simp [Spec.step, hn, e4] at ho
      obtain ⟨rfl, rfl⟩ := ho
      obtain ⟨k', r, g1, g2⟩ := h.good.get e1
      obtain ⟨_, rfl⟩ := e2.unique g1
      exact ⟨_, ρ, by simp only [step, g2, State.value, e3, bind, Except.bind, pure, Except.pure], h.set hn x⟩
  | refTo x z =>
    match hn : I.names[x]?, hm : I.names[z]? with
    | none, _ => simp [Spec.step, hn] at ho
    | some n, none => simp [Spec.step, hn, hm] at ho
    | some n, some m =>
      obtain ⟨i, k, c, e1, e2, e3, e4, e5⟩ := h.name x n hn
      obtain ⟨j, k1, c1, f1, f2, f3, f4, f5⟩ := h.name z m hm
      simp only [Spec.step, hn, hm, e4, bind, Option.bind, pure] at ho
      split at ho
      · cases ho
      · rename_i hcond
        simp only [Bool.true_and, Bool.or_eq_true, Bool.not_eq_true', decide_eq_true_eq, not_or,
          Bool.not_eq_false] at hcond
        obtain ⟨hs, hd⟩ := hcond
        cases ho
        have hi := e5 hs
        subst hi
        obtain ⟨k', r, g1, g2⟩ := h.good.chain f1
        obtain ⟨_, rfl⟩ := f2.unique g1
        refine ⟨_, ρ, by simp only [step, State.to_some e1, State.to_some f1, g2, bind, Except.bind, pure, Except.pure]; rfl, ?_⟩
        have h1 := h.merge hn hm e3 hd
        have hx : ∃ m' : Name, (I.merge n.place m.place).names[x]? = some m' ∧ m'.place = m.place := by
          unfold Names.merge
          split
          · rename_i he; exact ⟨n, hn, he⟩
          · exact ⟨⟨m.place, false⟩, by simp [hn], rfl⟩
        obtain ⟨m', hm', hmp⟩ := hx
        have h2 := h1.set hm' x
        rw [hmp] at h2
        exact h2
  | unRef x =>
    match hn : I.names[x]? with
    | none => simp [Spec.step, hn] at ho
    | some n =>
      obtain ⟨i, k, c, e1, e2, e3, e4, e5⟩ := h.name x n hn
      simp [Spec.step, hn, e4] at ho
      obtain ⟨rfl, rfl⟩ := ho
      obtain ⟨k', r, g1, g2⟩ := h.good.get e1
      obtain ⟨_, rfl⟩ := e2.unique g1
      by_cases hd : c.data = .null
      · refine ⟨{ s with vals := s.vals.set x (ρ n.place) }, ?_⟩
        have h0 : ρ n.place = 0 := h.nulls _ c e3 hd
        obtain ⟨ρ', h1⟩ := h.make_null
        refine ⟨ρ', by simp [step, g2, e3, hd, bind, Except.bind, pure, Except.pure], ?_⟩
        have hz : (I.fresh .null).names[I.names.length]? = some ⟨I.places.length, true⟩ := by simp [Names.fresh]
        obtain ⟨i2, k2, c2, a1, a2, a3, a4, a5⟩ := h1.name _ _ hz
        have hp0 : ρ' I.places.length = 0 := by
          have := a5 rfl
          have h3 : (s.push 0).vals[I.names.length]? = some 0 := by simp [State.push, ← h.len]
          rw [h3] at a1; cases a1
          exact this.symm
        have h2 := h1.set hz x
        dsimp only at h2
        rw [hp0] at h2
        have h3 := h2.pop (v := s.vals.set x 0) (i := 0) (ns := I.names.set x ⟨I.places.length, true⟩)
          (n := ⟨I.places.length, true⟩)
          (by simp only [State.push]; rw [List.set_append_left _ _ (get?_some_of e1)])
          (by simp only [Names.fresh]; rw [List.set_append_left _ _ (get?_some_of hn)])
        rw [h0, hd]
        exact h3
      · obtain ⟨ρ', h1⟩ := h.make c.data hd
        refine ⟨{ (s.make c.data).1 with vals := s.vals.set x s.cells.length }, ρ', ?_, ?_⟩
        · cases hdd : c.data with
          | null => exact absurd hdd hd
          | const p => simp [step, g2, e3, hdd, bind, Except.bind, pure, Except.pure, State.make]
          | var p => simp [step, g2, e3, hdd, bind, Except.bind, pure, Except.pure, State.make]
        · have hz : (I.fresh c.data).names[I.names.length]? = some ⟨I.places.length, true⟩ := by simp [Names.fresh]
          obtain ⟨i2, k2, c2, a1, a2, a3, a4, a5⟩ := h1.name _ _ hz
          have hp0 : ρ' I.places.length = s.cells.length := by
            have := a5 rfl
            have h3 : ((s.make c.data).1.push (s.make c.data).2).vals[I.names.length]? = some s.cells.length := by
              simp [State.push, State.make, ← h.len]
            rw [h3] at a1; cases a1
            exact this.symm
          have h2 := h1.set hz x
          dsimp only at h2
          rw [hp0] at h2
          exact h2.pop (v := s.vals.set x s.cells.length) (i := s.cells.length)
            (ns := I.names.set x ⟨I.places.length, true⟩) (n := ⟨I.places.length, true⟩)
            (by simp only [State.push, State.make]; rw [List.set_append_left _ _ (get?_some_of e1)])
            (by simp only [Names.fresh]; rw [List.set_append_left _ _ (get?_some_of hn)])
  | reRefTo x z =>
    match hn : I.names[x]?, hm : I.names[z]? with
    | none, _ => simp [Spec.step, hn] at ho
    | some n, none => simp [Spec.step, hn, hm] at ho
    | some n, some m =>
      obtain ⟨i, k, c, e1, e2, e3, e4, e5⟩ := h.name x n hn
      obtain ⟨j, k1, c1, f1, f2, f3, f4, f5⟩ := h.name z m hm
      simp [Spec.step, hn, hm] at ho
      obtain ⟨rfl, rfl⟩ := ho
      obtain ⟨k', r, g1, g2⟩ := h.good.chain f1
      obtain ⟨_, rfl⟩ := f2.unique g1
      exact ⟨_, ρ, by simp only [step, State.to_some e1, State.to_some f1, g2, bind, Except.bind, pure, Except.pure],
        h.set hm x⟩
  | shift z x =>
    match hn : I.names[x]?, hm : I.names[z]? with
    | none, _ => simp [Spec.step, hn] at ho
    | some n, none => simp [Spec.step, hn, hm] at ho
    | some n, some m =>
      obtain ⟨i, k, c, e1, e2, e3, e4, e5⟩ := h.name x n hn
      obtain ⟨j, k1, c1, f1, f2, f3, f4, f5⟩ := h.name z m hm
      simp only [Spec.step, hn, hm, e4, bind, Option.bind, pure] at ho
      split at ho
      · cases ho
      · rename_i hcond
        simp only [Bool.true_and, Bool.or_eq_true, Bool.not_eq_true', decide_eq_true_eq, not_or,
          Bool.not_eq_false] at hcond
        obtain ⟨hs, hd⟩ := hcond
        cases ho
        have hi := e5 hs
        subst hi
        obtain ⟨k', r, g1, g2⟩ := h.good.chain f1
        obtain ⟨_, rfl⟩ := f2.unique g1
        exact ⟨_, ρ, by simp only [step, State.to_some e1, State.to_some f1, g2, bind, Except.bind, pure, Except.pure],
          h.merge hn hm e3 hd⟩

/-- A history that the specification allows. -/
theorem run_rel {ρ s I} (h : Rel ρ s I) : ∀ {os : List Op} {I' : Names} {as : List Nat},
    Spec.run true I os = some (I', as) → ∃ s' ρ', run s os = .ok (s', as) ∧ Rel ρ' s' I' := by
  intro os
  induction os generalizing ρ s I with
  | nil => intro I' as hr; cases hr; exact ⟨s, ρ, rfl, h⟩
  | cons o os ih =>
    intro I' as hr
    match h1 : Spec.step true I o with
    | none => simp [Spec.run, h1] at hr
    | some (I1, a) =>
      match h2 : Spec.run true I1 os with
      | none => simp [Spec.run, h1, h2] at hr
      | some (I2, as2) =>
        simp [Spec.run, h1, h2] at hr
        obtain ⟨rfl, rfl⟩ := hr
        obtain ⟨s1, ρ1, e1, r1⟩ := step_rel h o h1
        obtain ⟨s2, ρ2, e2, r2⟩ := ih r1 h2
        exact ⟨s2, ρ2, by simp [run, e1, e2, bind, Except.bind, pure, Except.pure], r2⟩

theorem Rel.reads {ρ s I} (h : Rel ρ s I) (x v : Nat) : Reads s x v ↔ I.reads x = some v := by
  rw [h.good.reads]
  constructor
  · rintro ⟨i, k, r, c, e1, e2, e3, rfl⟩
    have hx : x < I.names.length := by rw [← h.len]; exact get?_some_of e1
    have hn : I.names[x]? = some I.names[x] := by simp [hx]
    obtain ⟨i', k', c', f1, f2, f3, f4, _⟩ := h.name x _ hn
    rw [e1] at f1; cases f1
    obtain ⟨_, rfl⟩ := e2.unique f2
    rw [e3] at f3; cases f3
    simp [Names.reads, hn, f4]
  · intro hr
    match hn : I.names[x]? with
    | none => simp [Names.reads, hn] at hr
    | some n =>
      obtain ⟨i, k, c, f1, f2, f3, f4, _⟩ := h.name x n hn
      simp [Names.reads, hn, f4] at hr
      exact ⟨i, k, _, c, f1, f2, f3, hr⟩

/-! ### More use of names -/

theorem spec_run_append {b : Bool} {os : List Op} : ∀ {I0 I1 : Names} {as : List Nat} {os' : List Op},
    Spec.run b I0 os = some (I1, as) →
    Spec.run b I0 (os ++ os') = (Spec.run b I1 os').map fun r => (r.1, as ++ r.2) := by
  induction os with
  | nil =>
    intro I0 I1 as os' h
    cases h
    simp only [List.nil_append]
    cases Spec.run b I0 os' <;> rfl
  | cons o os ih =>
    intro I0 I1 as os' h
    match h1 : Spec.step b I0 o with
    | none => simp [Spec.run, h1] at h
    | some (I2, a) =>
      match h2 : Spec.run b I2 os with
      | none => simp [Spec.run, h1, h2] at h
      | some (I3, as3) =>
        simp [Spec.run, h1, h2] at h
        obtain ⟨rfl, rfl⟩ := h
        simp only [List.cons_append, Spec.run, h1, ih h2, bind, Option.bind]
        cases Spec.run b I3 os' <;> simp

/-- The same names, at least as much used. -/
structure More (a b : Names) : Prop where
  places : b.places = a.places
  len : b.names.length = a.names.length
  names : ∀ (x : Nat) (n : Name), a.names[x]? = some n →
    ∃ m : Name, b.names[x]? = some m ∧ m.place = n.place ∧ (n.seen = true → m.seen = true)

theorem More.reads {a b : Names} (h : More a b) (x : Nat) : a.reads x = b.reads x := by
  match hn : a.names[x]? with
  | none =>
    have : b.names[x]? = none := by
      rw [List.getElem?_eq_none_iff] at hn ⊢; rw [h.len]; exact hn
    simp [Names.reads, hn, this]
  | some n =>
    obtain ⟨m, h1, h2, _⟩ := h.names x n hn
    simp [Names.reads, hn, h1, h2, h.places]

theorem More.push {a b : Names} (h : More a b) {n m : Name} (hp : m.place = n.place) (hs : n.seen = true → m.seen = true)
    (ps : List Data) : More ⟨a.names ++ [n], ps⟩ ⟨b.names ++ [m], ps⟩ := by
  refine ⟨rfl, by simp [h.len], fun x q hq => ?_⟩
  by_cases hx : x < a.names.length
  · simp only [List.getElem?_append_left hx] at hq
    obtain ⟨m', h1, h2, h3⟩ := h.names x q hq
    refine ⟨m', ?_, h2, h3⟩
    simp only [List.getElem?_append_left (show x < b.names.length by rw [h.len]; exact hx)]
    exact h1
  · have hx' : x = a.names.length := by
      have := get?_some_of hq; simp at this; omega
    subst hx'
    simp at hq
    subst hq
    exact ⟨m, by simp [← h.len], hp, hs⟩

theorem More.set {a b : Names} (h : More a b) (x p : Nat) (ps : List Data) :
    More ⟨a.names.set x ⟨p, true⟩, ps⟩ ⟨b.names.set x ⟨p, true⟩, ps⟩ := by
  refine ⟨rfl, by simp [h.len], fun y q hq => ?_⟩
  by_cases hy : x = y
  · subst hy
    have hl := get?_some_of hq
    simp at hl
    simp [hl] at hq
    subst hq
    exact ⟨⟨p, true⟩, by simp [h.len, hl], rfl, fun _ => rfl⟩
  · simp only [List.getElem?_set_ne hy] at hq
    obtain ⟨m, h1, h2, h3⟩ := h.names y q hq
    exact ⟨m, by simp only [List.getElem?_set_ne hy]; exact h1, h2, h3⟩

theorem More.merge {a b : Names} (h : More a b) (p q : Nat) : More (a.merge p q) (b.merge p q) := by
  unfold Names.merge
  split
  · exact h
  · refine ⟨h.places, by simp [h.len], fun x n hn => ?_⟩
    simp only [List.getElem?_map, Option.map_eq_some_iff] at hn
    obtain ⟨n0, hn0, rfl⟩ := hn
    obtain ⟨m, h1, h2, h3⟩ := h.names x n0 hn0
    refine ⟨_, by simp only [List.getElem?_map, h1, Option.map_some]; rfl, ?_, ?_⟩
    · rw [h2]; split <;> simp [h2]
    · rw [h2]; split
      · intro h; cases h
      · exact h3

theorem spec_step_more {a b : Names} (h : More a b) {o : Op} {a' : Names} {r : Option Nat}
    (ho : Spec.step true a o = some (a', r)) : ∃ b', Spec.step true b o = some (b', r) ∧ More a' b' := by
  have same : ∀ (x : Nat) (n : Name), a.names[x]? = some n → ∃ m : Name, b.names[x]? = some m ∧ m.place = n.place ∧
      (n.seen = true → m.seen = true) := h.names
  cases o with
  | fresh | null | const =>
    cases ho
    refine ⟨_, rfl, ?_⟩
    simp only [Names.fresh, h.places]
    exact h.push rfl (fun h => h) _
  | copy x =>
    match hn : a.names[x]? with
    | none => simp [Spec.step, hn] at ho
    | some n =>
      simp [Spec.step, hn] at ho
      obtain ⟨rfl, rfl⟩ := ho
      obtain ⟨m, h1, h2, h3⟩ := same x n hn
      exact ⟨_, by simp [Spec.step, h1]; rfl, by rw [h.places]; exact h.push h2 h3 _⟩
  | assign x p =>
    match hn : a.names[x]? with
    | none => simp [Spec.step, hn] at ho
    | some n =>
      obtain ⟨m, h1, h2, h3⟩ := same x n hn
      match hd : a.places[n.place]? with
      | none => simp [Spec.step, hn, hd] at ho
      | some d =>
        simp [Spec.step, hn, hd] at ho
        obtain ⟨rfl, rfl⟩ := ho
        refine ⟨⟨b.names.set x ⟨n.place, true⟩, a.places.set n.place (d.set p)⟩, by simp [Spec.step, h1, h2, h.places, hd], ?_⟩
        exact h.set _ _ _
  | read x =>
    match hn : a.names[x]? with
    | none => simp [Spec.step, hn] at ho
    | some n =>
      obtain ⟨m, h1, h2, h3⟩ := same x n hn
      match hd : a.places[n.place]? with
      | none => simp [Spec.step, hn, hd] at ho
      | some d =>
        simp [Spec.step, hn, hd] at ho
        obtain ⟨rfl, rfl⟩ := ho
        refine ⟨⟨b.names.set x ⟨n.place, true⟩, a.places⟩, by simp [Spec.step, h1, h2, h.places, hd], ?_⟩
        exact h.set _ _ _
  | unRef x =>
    match hn : a.names[x]? with
    | none => simp [Spec.step, hn] at ho
    | some n =>
      obtain ⟨m, h1, h2, h3⟩ := same x n hn
      match hd : a.places[n.place]? with
      | none => simp [Spec.step, hn, hd] at ho
      | some d =>
        simp [Spec.step, hn, hd] at ho
        obtain ⟨rfl, rfl⟩ := ho
        refine ⟨⟨b.names.set x ⟨a.places.length, true⟩, a.places ++ [d]⟩, by simp [Spec.step, h1, h2, h.places, hd], ?_⟩
        exact h.set _ _ _
  | reRefTo x z =>
    match hn : a.names[x]?, hm : a.names[z]? with
    | none, _ => simp [Spec.step, hn] at ho
    | some n, none => simp [Spec.step, hn, hm] at ho
    | some n, some m =>
      simp [Spec.step, hn, hm] at ho
      obtain ⟨rfl, rfl⟩ := ho
      obtain ⟨n', h1, h2, h3⟩ := same x n hn
      obtain ⟨m', g1, g2, g3⟩ := same z m hm
      refine ⟨⟨b.names.set x ⟨m.place, true⟩, a.places⟩, by simp [Spec.step, h1, g1, g2, h.places], ?_⟩
      exact h.set _ _ _
  | refTo x z =>
    match hn : a.names[x]?, hm : a.names[z]? with
    | none, _ => simp [Spec.step, hn] at ho
    | some n, none => simp [Spec.step, hn, hm] at ho
    | some n, some m =>
      obtain ⟨n', h1, h2, h3⟩ := same x n hn
      obtain ⟨m', g1, g2, g3⟩ := same z m hm
      match hd : a.places[n.place]? with
      | none => simp [Spec.step, hn, hm, hd] at ho
      | some d =>
        simp only [Spec.step, hn, hm, hd, bind, Option.bind, pure] at ho
        split at ho
        · cases ho
        · rename_i hcond
          simp only [Bool.true_and, Bool.or_eq_true, Bool.not_eq_true', decide_eq_true_eq, not_or,
            Bool.not_eq_false] at hcond
          cases ho
          have hcond' : ¬ (true && (!n'.seen || decide (d = .null))) = true := by simp [h3 hcond.1, hcond.2]
          refine ⟨_, by simp only [Spec.step, h1, g1, h2, g2, h.places, hd, bind, Option.bind, pure, if_neg hcond']; rfl, ?_⟩
          have := h.merge n.place m.place
          rw [this.places]
          exact this.set _ _ _
  | shift z x =>
    match hn : a.names[x]?, hm : a.names[z]? with
    | none, _ => simp [Spec.step, hn] at ho
    | some n, none => simp [Spec.step, hn, hm] at ho
    | some n, some m =>
      obtain ⟨n', h1, h2, h3⟩ := same x n hn
      obtain ⟨m', g1, g2, g3⟩ := same z m hm
      match hd : a.places[n.place]? with
      | none => simp [Spec.step, hn, hm, hd] at ho
      | some d =>
        simp only [Spec.step, hn, hm, hd, bind, Option.bind, pure] at ho
        split at ho
        · cases ho
        · rename_i hcond
          simp only [Bool.true_and, Bool.or_eq_true, Bool.not_eq_true', decide_eq_true_eq, not_or,
            Bool.not_eq_false] at hcond
          cases ho
          have hcond' : ¬ (true && (!n'.seen || decide (d = .null))) = true := by simp [h3 hcond.1, hcond.2]
          exact ⟨_, by simp only [Spec.step, h1, g1, h2, g2, h.places, hd, bind, Option.bind, pure, if_neg hcond'],
            h.merge n.place m.place⟩

theorem spec_run_more {os : List Op} : ∀ {a b a' : Names} {as : List Nat}, More a b →
    Spec.run true a os = some (a', as) → ∃ b', Spec.run true b os = some (b', as) ∧ More a' b' := by
  induction os with
  | nil => intro a b a' as h ho; cases ho; exact ⟨b, rfl, h⟩
  | cons o os ih =>
    intro a b a' as h ho
    match h1 : Spec.step true a o with
    | none => simp [Spec.run, h1] at ho
    | some (a1, r) =>
      match h2 : Spec.run true a1 os with
      | none => simp [Spec.run, h1, h2] at ho
      | some (a2, as2) =>
        simp [Spec.run, h1, h2] at ho
        obtain ⟨rfl, rfl⟩ := ho
        obtain ⟨b1, e1, m1⟩ := spec_step_more h h1
        obtain ⟨b2, e2, m2⟩ := ih m1 h2
        exact ⟨b2, by simp [Spec.run, e1, e2], m2⟩

theorem spec_read_more {a : Names} {x v : Nat} (h : a.reads x = some v) :
    ∃ b, Spec.step true a (.read x) = some (b, some v) ∧ More a b := by
  match hn : a.names[x]? with
  | none => simp [Names.reads, hn] at h
  | some n =>
    match hd : a.places[n.place]? with
    | none => simp [Names.reads, hn, hd] at h
    | some d =>
      simp [Names.reads, hn, hd] at h
      refine ⟨⟨a.names.set x ⟨n.place, true⟩, a.places⟩, by simp [Spec.step, hn, hd, h], rfl, by simp, fun y q hq => ?_⟩
      by_cases hy : x = y
      · subst hy
        rw [hn] at hq; cases hq
        exact ⟨⟨n.place, true⟩, List.getElem?_set_self (get?_some_of hn), rfl, fun _ => rfl⟩
      · exact ⟨q, by simp only [List.getElem?_set_ne hy]; exact hq, rfl, fun h => h⟩

end ELC.Val
