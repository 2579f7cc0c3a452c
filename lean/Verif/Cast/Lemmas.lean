import Verif.Cast.Spec
import Mathlib.Data.List.Nodup
/-! Helper lemmas. -/
namespace ELC.Cast

mutual
theorem mem_parts (c : Cls) (x : Part) : x ∈ parts c ↔ Has c x.path x.name x.pub := by
  match c with
  | .mk n bs =>
    rw [parts, List.mem_cons, mem_partsOf 0 bs x]
    constructor
    · rintro (rfl | ⟨i, pub, b, p, q, h1, h2, h3, h4⟩)
      · exact .self n bs
      · rw [Nat.zero_add] at h3
        rw [h3, h4]
        exact .base n bs i pub b p x.name q h1 h2
    · intro h
      obtain ⟨xn, xp, xq⟩ := x
      dsimp only at h
      cases h with
      | self => exact .inl rfl
      | base _ _ i pub b p _ q h1 h2 => exact .inr ⟨i, pub, b, p, q, h1, h2, by rw [Nat.zero_add], rfl⟩
theorem mem_partsOf (k : Nat) (bs : List (Bool × Cls)) (x : Part) : x ∈ partsOf k bs ↔
    ∃ i pub b p q, bs[i]? = some (pub, b) ∧ Has b p x.name q ∧ x.path = (k + i) :: p ∧ x.pub = (pub && q) := by
  match bs with
  | [] => simp [partsOf]
  | (pb, b) :: bs =>
    rw [partsOf, List.mem_append, List.mem_map, mem_partsOf (k + 1) bs x]
    constructor
    · rintro (⟨y, hy, rfl⟩ | ⟨i, pub, b', p, q, h1, h2, h3, h4⟩)
      · exact ⟨0, pb, b, y.path, y.pub, rfl, (mem_parts b y).1 hy, rfl, rfl⟩
      · exact ⟨i + 1, pub, b', p, q, h1, h2, by rw [h3]; congr 1; omega, h4⟩
    · rintro ⟨i, pub, b', p, q, h1, h2, h3, h4⟩
      cases i with
      | zero =>
        rw [List.getElem?_cons_zero] at h1
        cases h1
        refine .inl ⟨⟨x.name, q, p⟩, (mem_parts b _).2 h2, ?_⟩
        obtain ⟨xn, xp, xq⟩ := x
        dsimp only at h3 h4
        rw [h3, h4]; rfl
      | succ i => exact .inr ⟨i, pub, b', p, q, h1, h2, by rw [h3]; congr 1; omega, h4⟩
end

mutual
theorem parts_nodup (c : Cls) : ((parts c).map (·.path)).Nodup := by
  match c with
  | .mk n bs =>
    rw [parts, List.map_cons, List.nodup_cons]
    refine ⟨?_, partsOf_nodup 0 bs⟩
    intro h
    obtain ⟨x, hx, e⟩ := List.mem_map.1 h
    obtain ⟨i, _, _, p, _, _, _, h3, _⟩ := (mem_partsOf 0 bs x).1 hx
    rw [h3] at e; cases e
theorem partsOf_nodup (k : Nat) (bs : List (Bool × Cls)) : ((partsOf k bs).map (·.path)).Nodup := by
  match bs with
  | [] => simp [partsOf]
  | (pb, b) :: bs =>
    rw [partsOf, List.map_append, List.nodup_append]
    refine ⟨?_, partsOf_nodup (k + 1) bs, ?_⟩
    · have : (parts b).map (Part.path ∘ Part.under k pb) = ((parts b).map (·.path)).map (k :: ·) := by
        rw [List.map_map]; rfl
      rw [List.map_map, this]
      exact List.Nodup.map (f := (k :: ·)) (fun _ _ h => (List.cons.inj h).2) (parts_nodup b)
    · intro p hp q hq e
      rw [List.map_map] at hp
      obtain ⟨y, _, rfl⟩ := List.mem_map.1 hp
      obtain ⟨x, hx, rfl⟩ := List.mem_map.1 hq
      obtain ⟨i, _, _, p, _, _, _, h3, _⟩ := (mem_partsOf (k + 1) bs x).1 hx
      rw [h3] at e
      have := (List.cons.inj e).1
      omega
end

/-- The rule for handlers in terms of the sub-objects. -/
theorem catchPtr_iff (T : Nat) (c : Cls) (p : Path) : catchPtr T c = some p ↔ Is c T p := by
  have hmem : ∀ x, x ∈ (parts c).filter (·.name = T) ↔ Has c x.path T x.pub ∧ x.name = T := by
    intro x
    rw [List.mem_filter, mem_parts]
    constructor
    · rintro ⟨h, e⟩
      have e : x.name = T := by simpa using e
      exact ⟨by rw [← e]; exact h, e⟩
    · rintro ⟨h, e⟩
      exact ⟨by rw [e]; exact h, by simpa using e⟩
  have hnd : (((parts c).filter (·.name = T)).map (·.path)).Nodup :=
    (parts_nodup c).sublist (List.filter_sublist.map _)
  unfold catchPtr
  rcases hf : (parts c).filter (·.name = T) with _ | ⟨x, _ | ⟨y, l⟩⟩
  · rw [hf]
    dsimp only
    refine ⟨nofun, fun h => ?_⟩
    have := (hmem ⟨T, true, p⟩).2 ⟨h.1, rfl⟩
    rw [hf] at this; cases this
  · rw [hf] at hmem ⊢
    have hx := (hmem x).1 (by simp)
    dsimp only
    constructor
    · intro h
      by_cases hp : x.pub = true
      · rw [if_pos hp] at h
        injection h with h
        refine ⟨by rw [← h, ← hp]; exact hx.1, fun q pub hq => ?_⟩
        have := (hmem ⟨T, pub, q⟩).2 ⟨hq, rfl⟩
        rw [List.mem_singleton] at this
        rw [← h, ← this]
      · rw [if_neg hp] at h; cases h
    · intro h
      have := (hmem ⟨T, true, p⟩).2 ⟨h.1, rfl⟩
      rw [List.mem_singleton] at this
      rw [← this]; rfl
  · rw [hf] at hmem hnd ⊢
    dsimp only
    refine ⟨nofun, fun h => ?_⟩
    have e1 := h.2 _ _ ((hmem x).1 (by simp)).1
    have e2 := h.2 _ _ ((hmem y).1 (by simp)).1
    rw [List.map_cons, List.map_cons, List.nodup_cons] at hnd
    exact absurd (by rw [e1, e2]; simp) hnd.1

theorem has_self (c : Cls) : Has c [] c.name true := by
  obtain ⟨n, bs⟩ := c
  exact .self n bs

end ELC.Cast
